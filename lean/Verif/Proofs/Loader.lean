import Verif.Model.Loader
import Verif.Spec.Compose
import Verif.Proofs.Grammar

/-! Composition: the loader's stack algorithm computes exactly `Rep`. -/

namespace LibYaml

open Spec

/-- The body of the loop for a list of events. -/
def composeAll (room : Nat → Bool) : List Event → CState → Except Fail CState
  | [], s => .ok s
  | e :: es, s =>
    match composeEvent room e s with
    | .error err => .error err
    | .ok s => composeAll room es s

/-- No limit. -/
def allRoom (_ : Nat) : Bool := true

/-- Add several children to the innermost open collection. -/
def addAll (room : Nat → Bool) : List Nat → CState → Except Fail CState
  | [], s => .ok s
  | i :: is, s =>
    match nodeAdd room i s with
    | .error err => .error err
    | .ok s => addAll room is s

theorem composeAll_append (room) (v w : List Event) (s : CState) :
    composeAll room (v ++ w) s = match composeAll room v s with | .error e => .error e | .ok s => composeAll room w s := by
  induction v generalizing s with
  | nil => rfl
  | cons e v ih =>
    simp only [List.cons_append, composeAll]
    cases composeEvent room e s with
    | error e => rfl
    | ok s => exact ih s

theorem composeAll_append_ok {room} {v w : List Event} {s s1 : CState} (h : composeAll room v s = .ok s1) :
    composeAll room (v ++ w) s = composeAll room w s1 := by rw [composeAll_append, h]

theorem composeAll_append_inv {room} {v w : List Event} {s s2 : CState} (h : composeAll room (v ++ w) s = .ok s2) :
    ∃ s1, composeAll room v s = .ok s1 ∧ composeAll room w s1 = .ok s2 := by
  rw [composeAll_append] at h
  cases hv : composeAll room v s with
  | error e => rw [hv] at h; cases h
  | ok s1 => rw [hv] at h; exact ⟨s1, rfl, h⟩

theorem addAll_append (room) (v w : List Nat) (s : CState) :
    addAll room (v ++ w) s = match addAll room v s with | .error e => .error e | .ok s => addAll room w s := by
  induction v generalizing s with
  | nil => rfl
  | cons e v ih =>
    simp only [List.cons_append, addAll]
    cases nodeAdd room e s with
    | error e => rfl
    | ok s => exact ih s

theorem addAll_append_inv {room} {v w : List Nat} {s s2 : CState} (h : addAll room (v ++ w) s = .ok s2) :
    ∃ s1, addAll room v s = .ok s1 ∧ addAll room w s1 = .ok s2 := by
  rw [addAll_append] at h
  cases hv : addAll room v s with
  | error e => rw [hv] at h; cases h
  | ok s1 => rw [hv] at h; exact ⟨s1, rfl, h⟩

/-- The innermost open collection exists. -/
def CtxOk (s : CState) : Prop := ∀ c, s.ctx.head? = some c → c - 1 < s.nodes.length

theorem nodeAdd_ok {room} {i : Nat} {s s1 : CState} (h : nodeAdd room i s = .ok s1) :
    s1.nodes.length = s.nodes.length ∧ s1.aliases = s.aliases ∧ s1.ctx = s.ctx := by
  unfold nodeAdd at h
  split at h
  · cases h; exact ⟨rfl, rfl, rfl⟩
  · split at h
    · cases h
    · split at h
      · cases h; simp
      · cases h

theorem addAll_ok {room} {is : List Nat} {s s1 : CState} (h : addAll room is s = .ok s1) :
    s1.nodes.length = s.nodes.length ∧ s1.aliases = s.aliases ∧ s1.ctx = s.ctx := by
  induction is generalizing s with
  | nil => cases h; exact ⟨rfl, rfl, rfl⟩
  | cons i is ih =>
    simp only [addAll] at h
    split at h
    · cases h
    next s2 h2 =>
      obtain ⟨a, b, c⟩ := ih h
      obtain ⟨a', b', c'⟩ := nodeAdd_ok h2
      exact ⟨a.trans a', b.trans b', c.trans c'⟩

/-- Adding a child commutes with later nodes and anchors. -/
theorem nodeAdd_frame {room} {i : Nat} {s s1 : CState} (hc : CtxOk s) (h : nodeAdd room i s = .ok s1) (ms : List Node)
    (as : List AliasData) : nodeAdd room i { s with nodes := s.nodes ++ ms, aliases := as } =
      .ok { s1 with nodes := s1.nodes ++ ms, aliases := as } := by
  obtain ⟨nodes, aliases, ctx⟩ := s
  cases ctx with
  | nil => simp only [nodeAdd] at h; cases h; rfl
  | cons c cs =>
    have hlt := hc c rfl
    simp only at hlt
    simp only [nodeAdd] at h ⊢
    rw [List.getElem?_append_left hlt]
    cases hn : nodes[c - 1]? with
    | none => rw [hn] at h; cases h
    | some nd =>
      rw [hn] at h
      simp only at h ⊢
      cases ha : addChild room i nd with
      | error e => rw [ha] at h; cases h
      | ok nd' =>
        rw [ha] at h
        cases h
        simp only
        rw [List.set_append_left _ _ hlt]

theorem addAll_frame {room} {is : List Nat} {s s1 : CState} (hc : CtxOk s) (h : addAll room is s = .ok s1) (ms : List Node)
    (as : List AliasData) : addAll room is { s with nodes := s.nodes ++ ms, aliases := as } =
      .ok { s1 with nodes := s1.nodes ++ ms, aliases := as } := by
  induction is generalizing s with
  | nil => cases h; rfl
  | cons i is ih =>
    simp only [addAll] at h
    split at h
    · cases h
    next s2 h2 =>
      obtain ⟨a, b, c⟩ := nodeAdd_ok h2
      simp only [addAll, nodeAdd_frame hc h2 ms as]
      exact ih (by intro x hx; rw [c] at hx; rw [a]; exact hc x hx) h

/-- All children of a sequence. -/
theorem addAll_seq (X : List Node) (nd : Node) (items is : List Nat) (st : CollStyle) (as : List AliasData) (c : Nat)
    (cs : List Nat) (hc : c = X.length + 1) (hd : nd.data = .sequence items st) :
    addAll allRoom is { nodes := X ++ [nd], aliases := as, ctx := c :: cs } =
      .ok { nodes := X ++ [{ nd with data := .sequence (items ++ is) st }], aliases := as, ctx := c :: cs } := by
  induction is generalizing nd items with
  | nil =>
    obtain ⟨t, d, a, b⟩ := nd
    simp only at hd; subst hd
    simp [addAll]
  | cons i is ih =>
    have : nodeAdd allRoom i { nodes := X ++ [nd], aliases := as, ctx := c :: cs } =
        .ok { nodes := X ++ [{ nd with data := .sequence (items ++ [i]) st }], aliases := as, ctx := c :: cs } := by
      subst hc
      simp [nodeAdd, addChild, hd, allRoom]
    simp only [addAll, this]
    rw [ih _ (items ++ [i]) rfl]
    simp

theorem addToPairs_key (ps : List (Nat × Nat)) (h : ∀ p ∈ ps, p.2 ≠ 0) (k : Nat) :
    addToPairs allRoom ps k = .ok (ps ++ [(k, 0)]) := by
  unfold addToPairs
  cases hl : ps.getLast? with
  | none => simp [allRoom]
  | some p =>
    obtain ⟨a, b⟩ := p
    have := h _ (List.mem_of_getLast? hl)
    simp only at this
    simp [this, allRoom]

theorem addToPairs_value (ps : List (Nat × Nat)) (k v : Nat) (hk : k ≠ 0) :
    addToPairs allRoom (ps ++ [(k, 0)]) v = .ok (ps ++ [(k, v)]) := by
  unfold addToPairs
  simp [hk]

/-- All children of a mapping. -/
theorem addAll_map (X : List Node) (nd : Node) (ps qs : List (Nat × Nat)) (st : CollStyle) (as : List AliasData) (c : Nat)
    (cs : List Nat) (hc : c = X.length + 1) (hd : nd.data = .mapping ps st) (h1 : ∀ p ∈ ps, p.2 ≠ 0)
    (h2 : ∀ p ∈ qs, p.1 ≠ 0 ∧ p.2 ≠ 0) :
    addAll allRoom (qs.flatMap fun p => [p.1, p.2]) { nodes := X ++ [nd], aliases := as, ctx := c :: cs } =
      .ok { nodes := X ++ [{ nd with data := .mapping (ps ++ qs) st }], aliases := as, ctx := c :: cs } := by
  induction qs generalizing nd ps with
  | nil =>
    obtain ⟨t, d, a, b⟩ := nd
    simp only at hd; subst hd
    simp [addAll]
  | cons q qs ih =>
    obtain ⟨k, v⟩ := q
    have hq := h2 _ (.head _)
    simp only at hq
    have e1 : nodeAdd allRoom k { nodes := X ++ [nd], aliases := as, ctx := c :: cs } =
        .ok { nodes := X ++ [{ nd with data := .mapping (ps ++ [(k, 0)]) st }], aliases := as, ctx := c :: cs } := by
      subst hc
      simp [nodeAdd, addChild, hd, addToPairs_key ps h1]
    have e2 : nodeAdd allRoom v
        { nodes := X ++ [{ nd with data := .mapping (ps ++ [(k, 0)]) st }], aliases := as, ctx := c :: cs } =
        .ok { nodes := X ++ [{ nd with data := .mapping (ps ++ [(k, v)]) st }], aliases := as, ctx := c :: cs } := by
      subst hc
      simp [nodeAdd, addChild, addToPairs_value ps k v hq.1]
    simp only [List.flatMap_cons, List.cons_append, List.nil_append, addAll, e1, e2]
    rw [ih { nd with data := .mapping (ps ++ [(k, v)]) st } (ps ++ [(k, v)]) rfl
      (by intro p hp; rcases List.mem_append.mp hp with hp | hp
          · exact h1 p hp
          · simp only [List.mem_singleton] at hp; subst hp; exact hq.2)
      (fun p hp => h2 p (.tail _ hp))]
    simp

/-- The anchors bound. -/
def bound (as : List AliasData) : List (Text × Nat) := as.map fun d => (d.anchor, d.index)

theorem tagOr_eq (d : Text) (t : Option Text) : tagOr d t = nodeTag d t := by
  cases t <;> rfl

theorem register_iff {index : Nat} {mark : Mark} {a : Option Text} {as : List AliasData} :
    (Unbound (bound as) a ∧ ∃ as', registerAnchor index mark a as = .ok as' ∧ bound as' = bindAnchor (bound as) a index) ∨
    (¬ Unbound (bound as) a ∧ ∃ m, registerAnchor index mark a as =
      .error (.composer (some "found duplicate anchor; first occurrence") m "second occurrence" mark)) := by
  unfold registerAnchor
  cases a with
  | none => left; exact ⟨(by intro x i h; cases h), as, rfl, rfl⟩
  | some x =>
    simp only
    cases hf : as.find? (fun d => d.anchor == x) with
    | none =>
      left
      rw [List.find?_eq_none] at hf
      refine ⟨?_, _, rfl, by simp [bound, bindAnchor]⟩
      intro y i hy hm
      cases hy
      simp only [bound, List.mem_map] at hm
      obtain ⟨d, hd, he⟩ := hm
      injection he with h1 h2
      exact hf d hd (by simp [h1])
    | some d =>
      right
      refine ⟨?_, d.mark, rfl⟩
      intro hu
      have hd := List.find?_some hf
      have hm := List.mem_of_find?_eq_some hf
      simp only [beq_iff_eq] at hd
      exact hu x d.index rfl (by simp only [bound, List.mem_map]; exact ⟨d, hm, by rw [hd]⟩)

/-- Anchors have one node each. -/
def Functional (A : List (Text × Nat)) : Prop := ∀ a i j, (a, i) ∈ A → (a, j) ∈ A → i = j

theorem functional_bind {A : List (Text × Nat)} {a : Option Text} {i : Nat} (hf : Functional A) (h : Unbound A a) :
    Functional (bindAnchor A a i) := by
  cases a with
  | none => exact hf
  | some x =>
    intro y j k h1 h2
    simp only [bindAnchor, List.mem_append, List.mem_singleton] at h1 h2
    rcases h1 with h1 | h1 <;> rcases h2 with h2 | h2
    · exact hf y j k h1 h2
    · injection h2 with e1 e2; subst e1; exact absurd h1 (h y j rfl)
    · injection h1 with e1 e2; subst e1; exact absurd h2 (h y k rfl)
    · injection h1 with e1 e2; injection h2 with e3 e4; rw [e2, e4]

theorem find_alias {as : List AliasData} (hf : Functional (bound as)) {a : Text} {i : Nat} (h : (a, i) ∈ bound as) :
    ∃ d, as.find? (fun d => d.anchor == a) = some d ∧ d.index = i := by
  cases hx : as.find? (fun d => d.anchor == a) with
  | none =>
    rw [List.find?_eq_none] at hx
    simp only [bound, List.mem_map] at h
    obtain ⟨d, hd, he⟩ := h
    injection he with h1 h2
    exact absurd (by simp [h1]) (hx d hd)
  | some d =>
    refine ⟨d, rfl, ?_⟩
    have hd := List.find?_some hx
    have hm := List.mem_of_find?_eq_some hx
    simp only [beq_iff_eq] at hd
    refine hf a _ _ ?_ h
    simp only [bound, List.mem_map]
    exact ⟨d, hm, by rw [hd]⟩

/-- Ids that occur are positive, bindings stay functional and positive. -/
theorem rep_pos {s A n w ids A' ns} (h : Rep s A n w ids A' ns) (hA : ∀ p ∈ A, 0 < p.2) :
    (∀ i ∈ ids, 0 < i) ∧ (∀ p ∈ A', 0 < p.2) := by
  have hb : ∀ {A : List (Text × Nat)} {a : Option Text} {n : Nat}, (∀ p ∈ A, 0 < p.2) → ∀ p ∈ bindAnchor A a (n + 1), 0 < p.2 := by
    intro A a n hA p hp
    cases a with
    | none => exact hA p hp
    | some x =>
      simp only [bindAnchor, List.mem_append, List.mem_singleton] at hp
      rcases hp with hp | rfl
      · exact hA p hp
      · exact Nat.succ_pos n
  induction h with
  | alias he hm => exact ⟨by simpa using hA _ hm, hA⟩
  | scalar he hu => exact ⟨by simp, hb hA⟩
  | seq he he' hu hw ih => exact ⟨by simp, (ih (hb hA)).2⟩
  | map he he' hu hw hp ih => exact ⟨by simp, (ih (hb hA)).2⟩
  | nodesNil => exact ⟨by simp, hA⟩
  | nodesCons h1 h2 ih1 ih2 =>
    obtain ⟨a1, b1⟩ := ih1 hA
    obtain ⟨a2, b2⟩ := ih2 b1
    exact ⟨fun i hi => (List.mem_append.mp hi).elim (a1 i) (a2 i), b2⟩
  | pairsNil => exact ⟨by simp, hA⟩
  | pairsCons h1 h2 h3 ih1 ih2 ih3 =>
    obtain ⟨a1, b1⟩ := ih1 hA
    obtain ⟨a2, b2⟩ := ih2 b1
    obtain ⟨a3, b3⟩ := ih3 b2
    exact ⟨fun i hi => (List.mem_append.mp hi).elim (a1 i) (fun hi => (List.mem_append.mp hi).elim (a2 i) (a3 i)), b3⟩

theorem rep_functional {s A n w ids A' ns} (h : Rep s A n w ids A' ns) (hA : Functional A) : Functional A' := by
  induction h with
  | alias he hm => exact hA
  | scalar he hu => exact functional_bind hA hu
  | seq he he' hu hw ih => exact ih (functional_bind hA hu)
  | map he he' hu hw hp ih => exact ih (functional_bind hA hu)
  | nodesNil => exact hA
  | nodesCons h1 h2 ih1 ih2 => exact ih2 (ih1 hA)
  | pairsNil => exact hA
  | pairsCons h1 h2 h3 ih1 ih2 ih3 => exact ih3 (ih2 (ih1 hA))

theorem closeNode_last (isKind : NodeData → Bool) (X : List Node) (nd : Node) (ms : List Node) (as : List AliasData) (stop : Mark)
    (cs : List Nat) (hk : isKind nd.data = true) :
    closeNode isKind stop { nodes := X ++ [nd] ++ ms, aliases := as, ctx := (X.length + 1) :: cs } =
      .ok { nodes := X ++ [{ nd with stop := stop }] ++ ms, aliases := as, ctx := cs } := by
  simp [closeNode, hk]

/-- Opening a collection. -/
theorem addNode_open {nd : Node} {a : Option Text} {s s1 : CState} (hc : CtxOk s) (hu : Unbound (bound s.aliases) a)
    (h : nodeAdd allRoom (s.nodes.length + 1) s = .ok s1) (b : Bool) :
    ∃ as, bound as = bindAnchor (bound s.aliases) a (s.nodes.length + 1) ∧ addNode allRoom nd a b s =
      .ok { nodes := s1.nodes ++ [nd], aliases := as, ctx := if b then (s.nodes.length + 1) :: s.ctx else s.ctx } := by
  rcases register_iff (index := s.nodes.length + 1) (mark := nd.start) (a := a) (as := s.aliases) with ⟨_, as, h1, h2⟩ | ⟨h1, _⟩
  · refine ⟨as, h2, ?_⟩
    obtain ⟨_, _, e⟩ := nodeAdd_ok h
    simp only [addNode, allRoom, if_true, h1]
    have := nodeAdd_frame hc h [nd] as
    rw [this]
    simp only
    rw [e]
    cases b <;> simp
  · exact absurd hu h1

/-- Events with a representation are composed into it. -/
theorem compose_of_rep {s A n w ids A' ns} (h : Rep s A n w ids A' ns) : ∀ {st st1 : CState}, CtxOk st → st.nodes.length = n →
    bound st.aliases = A → Functional A → (∀ p ∈ A, 0 < p.2) → addAll allRoom ids st = .ok st1 →
    ∃ as, bound as = A' ∧ composeAll allRoom w st = .ok { nodes := st1.nodes ++ ns, aliases := as, ctx := st.ctx } := by
  induction h with
  | @alias A n e a i he hm =>
    intro st st1 hc hn hb hf hp ha
    refine ⟨st.aliases, hb, ?_⟩
    obtain ⟨d, hd, hi⟩ := find_alias (by rw [hb]; exact hf) (by rw [hb]; exact hm)
    simp only [addAll] at ha
    split at ha
    · cases ha
    next s2 h2 =>
      cases ha
      obtain ⟨_, e1, e2⟩ := nodeAdd_ok h2
      simp only [composeAll, composeEvent, he, loadAlias, hd, hi, h2]
      simp [← e1, ← e2]
  | @scalar A n e a t v p q s he hu =>
    intro st st1 hc hn hb hf hp ha
    subst hn
    simp only [addAll] at ha
    split at ha
    · cases ha
    next s2 h2 =>
      cases ha
      obtain ⟨as, h3, h4⟩ := addNode_open
        (nd := { tag := nodeTag strTag t, data := .scalar v s, start := e.start, stop := e.stop }) hc (by rw [hb]; exact hu) h2 false
      refine ⟨as, by rw [h3, hb], ?_⟩
      simp only [composeAll, composeEvent, he, tagOr_eq, h4]
      rfl
  | @seq A n e e' a t i s w items A' ns he he' hu hw ih =>
    intro st st1 hc hn hb hf hp ha
    subst hn
    simp only [addAll] at ha
    split at ha
    · cases ha
    next s2 h2 =>
      cases ha
      obtain ⟨as, h3, h4⟩ := addNode_open
        (nd := { tag := nodeTag seqTag t, data := .sequence [] s, start := e.start, stop := e.stop }) hc (by rw [hb]; exact hu) h2 true
      simp only [if_true] at h4
      have hl := (nodeAdd_ok h2).1
      have hadd := addAll_seq st1.nodes { tag := nodeTag seqTag t, data := .sequence [] s, start := e.start, stop := e.stop }
        [] items s as (st.nodes.length + 1) st.ctx (by rw [hl]) rfl
      let nd : Node := { tag := nodeTag seqTag t, data := .sequence [] s, start := e.start, stop := e.stop }
      obtain ⟨as', h5, h6⟩ := ih (st := { nodes := st1.nodes ++ [nd], aliases := as, ctx := (st.nodes.length + 1) :: st.ctx })
        (by intro c hcc; simp only [List.head?_cons, Option.some.injEq] at hcc; subst hcc; simp [hl])
        (by simp [hl]) (by rw [h3, hb]) (functional_bind hf hu)
        (fun p hp' => by
          cases a with
          | none => exact hp p hp'
          | some x =>
            simp only [bindAnchor, List.mem_append, List.mem_singleton] at hp'
            rcases hp' with hp' | rfl
            · exact hp p hp'
            · simp)
        hadd
      refine ⟨as', h5, ?_⟩
      rw [List.cons_append]
      simp only [composeAll]
      simp only [composeEvent, he, tagOr_eq, h4]
      rw [composeAll_append, h6]
      simp only [composeAll]
      simp only [composeEvent, he']
      rw [← hl, closeNode_last _ _ _ _ _ _ _ rfl]
      simp
  | @map A n e e' a t i s w ids pairs A' ns he he' hu hw hpr ih =>
    intro st st1 hc hn hb hf hp ha
    subst hn
    simp only [addAll] at ha
    split at ha
    · cases ha
    next s2 h2 =>
      cases ha
      obtain ⟨as, h3, h4⟩ := addNode_open
        (nd := { tag := nodeTag mapTag t, data := .mapping [] s, start := e.start, stop := e.stop }) hc (by rw [hb]; exact hu) h2 true
      simp only [if_true] at h4
      have hl := (nodeAdd_ok h2).1
      have hp2 : ∀ p ∈ bindAnchor A a (st.nodes.length + 1), 0 < p.2 := fun p hp' => by
          cases a with
          | none => exact hp p hp'
          | some x =>
            simp only [bindAnchor, List.mem_append, List.mem_singleton] at hp'
            rcases hp' with hp' | rfl
            · exact hp p hp'
            · simp
      have hpos := (rep_pos hw hp2).1
      have hadd := addAll_map st1.nodes { tag := nodeTag mapTag t, data := .mapping [] s, start := e.start, stop := e.stop }
        [] pairs s as (st.nodes.length + 1) st.ctx (by rw [hl]) rfl (by simp)
        (fun p hm => ⟨by
            have := hpos p.1 (by rw [hpr, List.mem_flatMap]; exact ⟨p, hm, by simp⟩)
            omega, by
            have := hpos p.2 (by rw [hpr, List.mem_flatMap]; exact ⟨p, hm, by simp⟩)
            omega⟩)
      rw [← hpr] at hadd
      let nd : Node := { tag := nodeTag mapTag t, data := .mapping [] s, start := e.start, stop := e.stop }
      obtain ⟨as', h5, h6⟩ := ih (st := { nodes := st1.nodes ++ [nd], aliases := as, ctx := (st.nodes.length + 1) :: st.ctx })
        (by intro c hcc; simp only [List.head?_cons, Option.some.injEq] at hcc; subst hcc; simp [hl])
        (by simp [hl]) (by rw [h3, hb]) (functional_bind hf hu) hp2 hadd
      refine ⟨as', h5, ?_⟩
      rw [List.cons_append]
      simp only [composeAll]
      simp only [composeEvent, he, tagOr_eq, h4]
      rw [composeAll_append, h6]
      simp only [composeAll]
      simp only [composeEvent, he']
      rw [← hl, closeNode_last _ _ _ _ _ _ _ rfl]
      simp
  | nodesNil =>
    intro st st1 hc hn hb hf hp ha
    cases ha
    exact ⟨st.aliases, hb, by simp [composeAll]⟩
  | @nodesCons A n v is A1 ns w js A2 ms h1 h2 ih1 ih2 =>
    intro st st1 hc hn hb hf hp ha
    subst hn
    obtain ⟨s1, ha1, ha2⟩ := addAll_append_inv ha
    obtain ⟨l1, _, c1⟩ := addAll_ok ha1
    have hc1 : CtxOk s1 := by intro c hcc; rw [c1] at hcc; rw [l1]; exact hc c hcc
    obtain ⟨as, hb1, e1⟩ := ih1 hc rfl hb hf hp ha1
    obtain ⟨as', hb2, e2⟩ := ih2 (st := { nodes := s1.nodes ++ ns, aliases := as, ctx := s1.ctx })
      (by intro c hcc; have := hc1 c hcc; simp only [List.length_append]; omega)
      (by simp [l1]) hb1 (rep_functional h1 hf) (rep_pos h1 hp).2 (addAll_frame hc1 ha2 ns as)
    refine ⟨as', hb2, ?_⟩
    rw [composeAll_append_ok e1, ← c1, e2]
    simp
  | pairsNil =>
    intro st st1 hc hn hb hf hp ha
    cases ha
    exact ⟨st.aliases, hb, by simp [composeAll]⟩
  | @pairsCons A n u ks A1 ns v vs A2 ms w js A3 os h1 h2 h3 ih1 ih2 ih3 =>
    intro st st1 hc hn hb hf hp ha
    subst hn
    obtain ⟨s1, ha1, ha'⟩ := addAll_append_inv ha
    obtain ⟨s2, ha2, ha3⟩ := addAll_append_inv ha'
    obtain ⟨l1, _, c1⟩ := addAll_ok ha1
    obtain ⟨l2, _, c2⟩ := addAll_ok ha2
    have hc1 : CtxOk s1 := by intro c hcc; rw [c1] at hcc; rw [l1]; exact hc c hcc
    have hc2 : CtxOk s2 := by intro c hcc; rw [c2] at hcc; rw [l2]; exact hc1 c hcc
    obtain ⟨as, hb1, e1⟩ := ih1 hc rfl hb hf hp ha1
    obtain ⟨as', hb2, e2⟩ := ih2 (st := { nodes := s1.nodes ++ ns, aliases := as, ctx := s1.ctx })
      (by intro c hcc; have := hc1 c hcc; simp only [List.length_append]; omega)
      (by simp [l1]) hb1 (rep_functional h1 hf) (rep_pos h1 hp).2 (addAll_frame hc1 ha2 ns as)
    simp only at e2
    obtain ⟨as'', hb3, e3⟩ := ih3 (st := { nodes := s2.nodes ++ ns ++ ms, aliases := as', ctx := s1.ctx })
      (by intro c hcc; have := hc1 c hcc; simp only [List.length_append]; omega)
      (by simp [l1, l2]; omega) hb2 (rep_functional h2 (rep_functional h1 hf)) (rep_pos h2 (rep_pos h1 hp).2).2
      (by have := addAll_frame hc2 ha3 (ns ++ ms) as'; rw [← List.append_assoc, c2] at this; exact this)
    refine ⟨as'', hb3, ?_⟩
    rw [composeAll_append_ok e1, ← c1, composeAll_append_ok e2, e3]
    simp

theorem nodeAdd_unframe {room} {i : Nat} {s s1 : CState} {ms : List Node} {as : List AliasData} (hc : CtxOk s)
    (h : nodeAdd room i { s with nodes := s.nodes ++ ms, aliases := as } = .ok s1) : ∃ s2, nodeAdd room i s = .ok s2 := by
  obtain ⟨nodes, aliases, ctx⟩ := s
  cases ctx with
  | nil => exact ⟨_, rfl⟩
  | cons c cs =>
    have hlt := hc c rfl
    simp only at hlt
    simp only [nodeAdd] at h ⊢
    rw [List.getElem?_append_left hlt] at h
    cases hn : nodes[c - 1]? with
    | none => rw [hn] at h; cases h
    | some nd =>
      rw [hn] at h
      simp only at h ⊢
      cases ha : addChild room i nd with
      | error e => rw [ha] at h; cases h
      | ok nd' => exact ⟨_, rfl⟩

theorem addAll_unframe {room} {is : List Nat} {s s1 : CState} {ms : List Node} {as : List AliasData} (hc : CtxOk s)
    (h : addAll room is { s with nodes := s.nodes ++ ms, aliases := as } = .ok s1) : ∃ s2, addAll room is s = .ok s2 := by
  induction is generalizing s with
  | nil => exact ⟨_, rfl⟩
  | cons i is ih =>
    simp only [addAll] at h
    split at h
    · cases h
    next s2 h2 =>
      obtain ⟨s3, h3⟩ := nodeAdd_unframe hc h2
      obtain ⟨a, b, c⟩ := nodeAdd_ok h3
      have hf := nodeAdd_frame hc h3 ms as
      rw [hf] at h2
      cases h2
      obtain ⟨s4, h4⟩ := ih (s := s3) (by intro x hx; rw [c] at hx; rw [a]; exact hc x hx) h
      exact ⟨s4, by simp only [addAll, h3, h4]⟩

theorem rep_one {A n w ids A' ns} (h : Rep .node A n w ids A' ns) : ∃ i, ids = [i] := by
  cases h <;> exact ⟨_, rfl⟩

theorem rep_pairs {s A n w ids A' ns} (h : Rep s A n w ids A' ns) (hs : s = .pairs) :
    ∃ pairs : List (Nat × Nat), ids = pairs.flatMap (fun p => [p.1, p.2]) := by
  induction h with
  | pairsNil => exact ⟨[], rfl⟩
  | pairsCons h1 h2 h3 ih1 ih2 ih3 =>
    obtain ⟨ps, hps⟩ := ih3 rfl
    obtain ⟨i, rfl⟩ := rep_one h1
    obtain ⟨j, rfl⟩ := rep_one h2
    exact ⟨(i, j) :: ps, by simp [hps]⟩
  | _ => cases hs

theorem addNode_inv {nd : Node} {a : Option Text} {b : Bool} {s s' : CState} (hc : CtxOk s)
    (h : addNode allRoom nd a b s = .ok s') : Unbound (bound s.aliases) a ∧
      ∃ s1, nodeAdd allRoom (s.nodes.length + 1) s = .ok s1 := by
  simp only [addNode, allRoom, if_true] at h
  rcases register_iff (index := s.nodes.length + 1) (mark := nd.start) (a := a) (as := s.aliases) with ⟨hu, as, h1, h2⟩ | ⟨h1, m, h2⟩
  · refine ⟨hu, ?_⟩
    rw [h1] at h
    simp only at h
    split at h
    · cases h
    next s2 hs2 => exact nodeAdd_unframe hc hs2
  · rw [h2] at h; cases h

theorem pos_bind {A : List (Text × Nat)} {a : Option Text} {n : Nat} (hA : ∀ p ∈ A, 0 < p.2) :
    ∀ p ∈ bindAnchor A a (n + 1), 0 < p.2 := by
  intro p hp
  cases a with
  | none => exact hA p hp
  | some x =>
    simp only [bindAnchor, List.mem_append, List.mem_singleton] at hp
    rcases hp with hp | rfl
    · exact hA p hp
    · exact Nat.succ_pos n

/-- What is composed has a representation. -/
theorem rep_of_compose {s : Sym} {wd : List EvData} (h : G s wd) : ∀ {w : List Event} {st st' : CState}, w.map Event.data = wd →
    CtxOk st → Functional (bound st.aliases) → (∀ p ∈ bound st.aliases, 0 < p.2) → composeAll allRoom w st = .ok st' →
    ∃ ids A' ns st1, Rep s (bound st.aliases) st.nodes.length w ids A' ns ∧ addAll allRoom ids st = .ok st1 := by
  have one : ∀ {e : Event} {st st' : CState}, composeAll allRoom [e] st = .ok st' → composeEvent allRoom e st = .ok st' := by
    intro e st st' h
    simp only [composeAll] at h
    split at h
    · cases h
    next h2 => cases h; exact h2
  have first : ∀ {e : Event} {w : List Event} {st st' : CState}, composeAll allRoom (e :: w) st = .ok st' →
      ∃ s1, composeEvent allRoom e st = .ok s1 ∧ composeAll allRoom w s1 = .ok st' := by
    intro e w st st' h
    simp only [composeAll] at h
    split at h
    · cases h
    next s1 h2 => exact ⟨s1, h2, h⟩
  have last : ∀ {w : List Event} {f : EvData} {wd : List EvData} {c : EvData}, w.map Event.data = f :: wd ++ [c] →
      ∃ e v e', w = e :: v ++ [e'] ∧ e.data = f ∧ v.map Event.data = wd ∧ e'.data = c := by
    intro w f wd c h
    obtain ⟨w1, w2, rfl, h1, h2⟩ := List.map_eq_append_iff.mp h
    obtain ⟨e, v, rfl, h3, h4⟩ := List.map_eq_cons_iff.mp h1
    obtain ⟨e', v', rfl, h5, h6⟩ := List.map_eq_cons_iff.mp h2
    cases List.map_eq_nil_iff.mp h6
    exact ⟨e, v, e', rfl, h3, h4, h5⟩
  induction h with
  | alias a =>
    intro w st st' hw hc hf hp h
    obtain ⟨e, v, rfl, h3, h4⟩ := List.map_eq_cons_iff.mp hw
    cases List.map_eq_nil_iff.mp h4
    have h := one h
    simp only [composeEvent, h3, loadAlias] at h
    split at h
    next d hd =>
      have hm := List.mem_of_find?_eq_some hd
      have hx := List.find?_some hd
      simp only [beq_iff_eq] at hx
      exact ⟨[d.index], _, _, st', .alias h3 (by simp only [bound, List.mem_map]; exact ⟨d, hm, by rw [hx]⟩),
        by simp only [addAll, h]⟩
    · cases h
  | scalar a t v p q s =>
    intro w st st' hw hc hf hp h
    obtain ⟨e, v, rfl, h3, h4⟩ := List.map_eq_cons_iff.mp hw
    cases List.map_eq_nil_iff.mp h4
    have h := one h
    simp only [composeEvent, h3] at h
    obtain ⟨hu, s1, h1⟩ := addNode_inv hc h
    exact ⟨_, _, _, s1, .scalar h3 hu, by simp only [addAll, h1]⟩
  | seq a t i s hg ih =>
    intro w st st' hw hc hf hp h
    obtain ⟨e, v, e', rfl, h1, h2, h3⟩ := last hw
    rw [List.cons_append] at h
    obtain ⟨s1, hs1, h⟩ := first h
    simp only [composeEvent, h1] at hs1
    obtain ⟨hu, s2, hs2⟩ := addNode_inv hc hs1
    obtain ⟨as, hb, ho⟩ := addNode_open (nd := { tag := tagOr seqTag t, data := .sequence [] s, start := e.start, stop := e.stop })
      hc hu hs2 true
    rw [ho] at hs1
    cases hs1
    simp only [if_true] at h
    obtain ⟨s3, hs3, h⟩ := composeAll_append_inv h
    have hl := (nodeAdd_ok hs2).1
    obtain ⟨ids, A', ns, s4, hr, _⟩ := ih h2 (by intro c hcc; simp only [List.head?_cons, Option.some.injEq] at hcc; subst hcc; simp [hl])
      (by rw [hb]; exact functional_bind hf hu) (by rw [hb]; exact pos_bind hp) hs3
    simp only [hb, List.length_append, hl, List.length_singleton] at hr
    exact ⟨_, _, _, s2, .seq h1 h3 hu hr, by simp only [addAll, hs2]⟩
  | map a t i s hg ih =>
    intro w st st' hw hc hf hp h
    obtain ⟨e, v, e', rfl, h1, h2, h3⟩ := last hw
    rw [List.cons_append] at h
    obtain ⟨s1, hs1, h⟩ := first h
    simp only [composeEvent, h1] at hs1
    obtain ⟨hu, s2, hs2⟩ := addNode_inv hc hs1
    obtain ⟨as, hb, ho⟩ := addNode_open (nd := { tag := tagOr mapTag t, data := .mapping [] s, start := e.start, stop := e.stop })
      hc hu hs2 true
    rw [ho] at hs1
    cases hs1
    simp only [if_true] at h
    obtain ⟨s3, hs3, h⟩ := composeAll_append_inv h
    have hl := (nodeAdd_ok hs2).1
    obtain ⟨ids, A', ns, s4, hr, _⟩ := ih h2 (by intro c hcc; simp only [List.head?_cons, Option.some.injEq] at hcc; subst hcc; simp [hl])
      (by rw [hb]; exact functional_bind hf hu) (by rw [hb]; exact pos_bind hp) hs3
    simp only [hb, List.length_append, hl, List.length_singleton] at hr
    obtain ⟨pairs, hpairs⟩ := rep_pairs hr rfl
    exact ⟨_, _, _, s2, .map h1 h3 hu hr hpairs, by simp only [addAll, hs2]⟩
  | nodesNil =>
    intro w st st' hw hc hf hp h
    cases List.map_eq_nil_iff.mp hw
    exact ⟨_, _, _, st, .nodesNil, rfl⟩
  | nodesCons hv hw' ihv ihw =>
    intro w st st' hw hc hf hp h
    obtain ⟨w1, w2, rfl, h1, h2⟩ := List.map_eq_append_iff.mp hw
    obtain ⟨s1, hs1, hs2⟩ := composeAll_append_inv h
    obtain ⟨ids, A', ns, t1, hr, ha⟩ := ihv h1 hc hf hp hs1
    obtain ⟨as, hb, he⟩ := compose_of_rep hr hc rfl rfl hf hp ha
    rw [he] at hs1
    cases hs1
    obtain ⟨l1, _, c1⟩ := addAll_ok ha
    have hc1 : CtxOk t1 := by intro c hcc; rw [c1] at hcc; rw [l1]; exact hc c hcc
    obtain ⟨ids2, A2, ns2, t2, hr2, ha2⟩ := ihw h2
      (by intro c hcc; have := hc c hcc; simp only [List.length_append]; omega)
      (by rw [hb]; exact rep_functional hr hf) (by rw [hb]; exact (rep_pos hr hp).2) hs2
    simp only [hb, List.length_append, l1] at hr2
    obtain ⟨t3, ht3⟩ := addAll_unframe (s := t1) hc1 (by rw [c1]; exact ha2)
    exact ⟨_, _, _, t3, .nodesCons hr hr2, by rw [addAll_append, ha]; exact ht3⟩
  | pairsNil =>
    intro w st st' hw hc hf hp h
    cases List.map_eq_nil_iff.mp hw
    exact ⟨_, _, _, st, .pairsNil, rfl⟩
  | pairsCons hk hv hw' ihk ihv ihw =>
    intro w st st' hw hc hf hp h
    obtain ⟨w1, w23, rfl, h1, h23⟩ := List.map_eq_append_iff.mp hw
    obtain ⟨w2, w3, rfl, h2, h3⟩ := List.map_eq_append_iff.mp h23
    obtain ⟨s1, hs1, hs23⟩ := composeAll_append_inv h
    obtain ⟨s2, hs2, hs3⟩ := composeAll_append_inv hs23
    obtain ⟨ids, A', ns, t1, hr, ha⟩ := ihk h1 hc hf hp hs1
    obtain ⟨as, hb, he⟩ := compose_of_rep hr hc rfl rfl hf hp ha
    rw [he] at hs1
    cases hs1
    obtain ⟨l1, _, c1⟩ := addAll_ok ha
    have hc1 : CtxOk t1 := by intro c hcc; rw [c1] at hcc; rw [l1]; exact hc c hcc
    have hcx : CtxOk { nodes := t1.nodes ++ ns, aliases := as, ctx := st.ctx } := by
      intro c hcc; have := hc c hcc; simp only [List.length_append]; omega
    obtain ⟨ids2, A2, ns2, t2, hr2, ha2⟩ := ihv h2 hcx
      (by rw [hb]; exact rep_functional hr hf) (by rw [hb]; exact (rep_pos hr hp).2) hs2
    obtain ⟨as2, hb2, he2⟩ := compose_of_rep hr2 hcx rfl rfl
      (by rw [hb]; exact rep_functional hr hf) (by rw [hb]; exact (rep_pos hr hp).2) ha2
    rw [he2] at hs2
    cases hs2
    simp only [hb, List.length_append, l1] at hr2
    obtain ⟨t3, ht3⟩ := addAll_unframe (s := t1) hc1 (by rw [c1]; exact ha2)
    obtain ⟨l3, _, c3⟩ := addAll_ok ht3
    have hfr := addAll_frame hc1 ht3 ns as
    rw [c1, ha2] at hfr
    cases hfr
    have hc3 : CtxOk t3 := by intro c hcc; rw [c3] at hcc; rw [l3]; exact hc1 c hcc
    obtain ⟨ids3, A3, ns3, t4, hr3, ha3⟩ := ihw h3
      (by intro c hcc; have := hc c hcc; simp only [List.length_append]; omega)
      (by rw [hb2]; exact rep_functional hr2 (rep_functional hr hf)) (by rw [hb2]; exact (rep_pos hr2 (rep_pos hr hp).2).2) hs3
    simp only [hb2, List.length_append, l1, l3] at hr3
    obtain ⟨t5, ht5⟩ := addAll_unframe (s := t3) (ms := ns ++ ns2) hc3 (by rw [c3, c1, ← List.append_assoc]; exact ha3)
    exact ⟨_, _, _, t5, .pairsCons hr hr2 hr3, by rw [addAll_append, ha]; simp only; rw [addAll_append, ht3]; exact ht5⟩

theorem bound_nil : bound [] = [] := rfl

theorem rep_root {A n w ids A' ns} (h : Rep .node A n w ids A' ns) (hA : A = []) (hn : n = 0) : ids = [1] := by
  subst hA hn
  cases h with
  | alias _ hm => cases hm
  | scalar => rfl
  | seq => rfl
  | map => rfl

/-- Composing one document without limits: it succeeds exactly on the events that have a representation, and the nodes are
those of the representation. -/
theorem compose_iff {w : List Event} (hg : G .node (w.map Event.data)) (ns : List Node) :
    (∃ s, composeAll allRoom w {} = .ok s ∧ s.nodes = ns) ↔ ∃ A, Rep .node [] 0 w [1] A ns := by
  have hc0 : CtxOk {} := by intro c h; cases h
  constructor
  · rintro ⟨s, hs, rfl⟩
    obtain ⟨ids, A', ns, st1, hr, ha⟩ := rep_of_compose hg rfl hc0 (by intro a i j h; cases h) (by simp [bound]) hs
    cases rep_root hr rfl rfl
    obtain ⟨as, hb, he⟩ := compose_of_rep hr hc0 rfl rfl (by intro a i j h; cases h) (by simp [bound]) ha
    rw [hs] at he
    cases he
    simp only [addAll, nodeAdd] at ha
    cases ha
    exact ⟨A', by simpa [bound] using hr⟩
  · rintro ⟨A, hr⟩
    obtain ⟨as, hb, he⟩ := compose_of_rep hr hc0 rfl rfl (by intro a i j h; cases h) (by simp)
      (st1 := {}) (by simp [addAll, nodeAdd])
    exact ⟨_, he, by simp⟩

/-! ### Limits -/

theorem addToPairs_room (room) (ps : List (Nat × Nat)) (i : Nat) :
    addToPairs room ps i = .error .memory ∨ addToPairs room ps i = addToPairs allRoom ps i := by
  unfold addToPairs
  cases ps.getLast? with
  | none => simp only [allRoom, if_true]; by_cases h : room ps.length = true <;> simp [h]
  | some p =>
    simp only [allRoom, if_true]
    by_cases h1 : p.1 ≠ 0 ∧ p.2 = 0
    · simp [if_pos h1]
    · simp only [if_neg h1]; by_cases h : room ps.length = true <;> simp [h]

theorem addChild_room (room) (i : Nat) (nd : Node) :
    addChild room i nd = .error .memory ∨ addChild room i nd = addChild allRoom i nd := by
  unfold addChild
  cases nd.data with
  | scalar => right; rfl
  | sequence items st => simp only [allRoom, if_true]; by_cases h : room items.length = true <;> simp [h]
  | mapping ps st =>
    simp only
    rcases addToPairs_room room ps i with h | h
    · left; rw [h]
    · right; rw [h]

theorem nodeAdd_room (room) (i : Nat) (s : CState) :
    nodeAdd room i s = .error .memory ∨ nodeAdd room i s = nodeAdd allRoom i s := by
  unfold nodeAdd
  split
  · right; rfl
  · split
    · right; rfl
    next nd _ =>
      rcases addChild_room room i nd with h | h
      · left; rw [h]
      · right; rw [h]

theorem addNode_room (room) (nd : Node) (a : Option Text) (b : Bool) (s : CState) :
    addNode room nd a b s = .error .memory ∨ addNode room nd a b s = addNode allRoom nd a b s := by
  unfold addNode
  by_cases h : room s.nodes.length = true
  · simp only [h, allRoom, if_true]
    cases registerAnchor (s.nodes.length + 1) nd.start a s.aliases with
    | error e => right; rfl
    | ok as =>
      simp only
      rcases nodeAdd_room room (s.nodes.length + 1) { s with nodes := s.nodes ++ [nd], aliases := as } with h | h
      · left; rw [h]
      · rw [h]
        cases nodeAdd allRoom (s.nodes.length + 1) { s with nodes := s.nodes ++ [nd], aliases := as } with
        | error e => right; rfl
        | ok s2 =>
          simp only
          by_cases h2 : room s2.ctx.length = true <;> cases b <;> simp [h2]
  · left; simp [h]

theorem composeEvent_room (room) (e : Event) (s : CState) :
    composeEvent room e s = .error .memory ∨ composeEvent room e s = composeEvent allRoom e s := by
  unfold composeEvent
  cases e.data with
  | alias a =>
    simp only [loadAlias]
    split
    · exact nodeAdd_room room _ s
    · right; rfl
  | scalar a t v p q st => exact addNode_room room _ _ _ _
  | sequenceStart a t i st => exact addNode_room room _ _ _ _
  | mappingStart a t i st => exact addNode_room room _ _ _ _
  | _ => right; rfl

theorem composeAll_room (room) (w : List Event) (s : CState) :
    composeAll room w s = .error .memory ∨ composeAll room w s = composeAll allRoom w s := by
  induction w generalizing s with
  | nil => right; rfl
  | cons e w ih =>
    simp only [composeAll]
    rcases composeEvent_room room e s with h | h
    · left; rw [h]
    · rw [h]
      cases composeEvent allRoom e s with
      | error e => right; rfl
      | ok s => exact ih s

/-- Number of entries in the stack of a node. -/
def Node.entries (nd : Node) : Nat :=
  match nd.data with
  | .scalar .. => 0
  | .sequence items _ => items.length
  | .mapping ps _ => ps.length

/-- All stacks have at most `m` entries. -/
structure Small (m : Nat) (s : CState) : Prop where
  nodes : s.nodes.length ≤ m
  ctx : s.ctx.length ≤ m
  entries : ∀ nd ∈ s.nodes, nd.entries ≤ m

theorem addToPairs_small {room} {m : Nat} (hr : ∀ k, k ≤ m → room k = true) {ps : List (Nat × Nat)} (h : ps.length ≤ m) (i : Nat) :
    addToPairs room ps i = addToPairs allRoom ps i ∧ ∀ qs, addToPairs room ps i = .ok qs → qs.length ≤ m + 1 := by
  unfold addToPairs
  simp only [hr _ h, allRoom, if_true]
  refine ⟨trivial, fun qs hq => ?_⟩
  split at hq
  next hl =>
    split at hq
    · cases hq; simp; omega
    · cases hq; simp; omega
  · cases hq; simp; omega

theorem addChild_small {room} {m : Nat} (hr : ∀ k, k ≤ m → room k = true) {nd : Node} (h : nd.entries ≤ m) (i : Nat) :
    addChild room i nd = addChild allRoom i nd ∧ ∀ nd', addChild room i nd = .ok nd' → nd'.entries ≤ m + 1 := by
  unfold addChild
  cases hd : nd.data with
  | scalar => exact ⟨rfl, by intro _ h; cases h⟩
  | sequence items st =>
    simp only [Node.entries, hd] at h
    simp only [hr _ h, allRoom, if_true]
    exact ⟨trivial, by intro nd' h; cases h; simp [Node.entries]; omega⟩
  | mapping ps st =>
    simp only [Node.entries, hd] at h
    obtain ⟨h1, h2⟩ := addToPairs_small hr h i
    simp only
    cases hp : addToPairs room ps i with
    | error e => rw [← h1, hp]; exact ⟨rfl, by intro _ h; cases h⟩
    | ok qs => rw [← h1, hp]; exact ⟨rfl, by intro nd' h; cases h; exact h2 qs hp⟩

theorem nodeAdd_small {room} {m : Nat} (hr : ∀ k, k ≤ m → room k = true) {s : CState} (h : ∀ nd ∈ s.nodes, nd.entries ≤ m) (i : Nat) :
    nodeAdd room i s = nodeAdd allRoom i s ∧ ∀ s', nodeAdd room i s = .ok s' → ∀ nd ∈ s'.nodes, nd.entries ≤ m + 1 := by
  unfold nodeAdd
  split
  · exact ⟨rfl, by intro s' h' nd hm; cases h'; exact Nat.le_succ_of_le (h nd hm)⟩
  · split
    · exact ⟨rfl, by intro _ h; cases h⟩
    next nd hn =>
      obtain ⟨h1, h2⟩ := addChild_small hr (h nd (List.mem_of_getElem? hn)) i
      cases hp : addChild room i nd with
      | error e => rw [← h1, hp]; exact ⟨rfl, by intro _ h; cases h⟩
      | ok nd' =>
        rw [← h1, hp]
        refine ⟨rfl, ?_⟩
        intro s' h' x hx
        cases h'
        rcases List.mem_or_eq_of_mem_set hx with hx | rfl
        · exact Nat.le_succ_of_le (h x hx)
        · exact h2 _ hp

theorem addNode_small {room} {m : Nat} (hr : ∀ k, k ≤ m → room k = true) {s : CState} (h : Small m s) (nd : Node) (h0 : nd.entries = 0)
    (a : Option Text) (b : Bool) :
    addNode room nd a b s = addNode allRoom nd a b s ∧ ∀ s', addNode room nd a b s = .ok s' → Small (m + 1) s' := by
  unfold addNode
  simp only [hr _ h.nodes, allRoom, if_true]
  cases registerAnchor (s.nodes.length + 1) nd.start a s.aliases with
  | error e => exact ⟨rfl, by intro _ h; cases h⟩
  | ok as =>
    simp only
    obtain ⟨h1, h2⟩ := nodeAdd_small (s := { s with nodes := s.nodes ++ [nd], aliases := as }) hr
      (by intro x hx
          rcases List.mem_append.mp hx with hx | hx
          · exact h.entries x hx
          · simp only [List.mem_singleton] at hx; subst hx; omega) (s.nodes.length + 1)
    rw [← h1]
    cases hn : nodeAdd room (s.nodes.length + 1) { s with nodes := s.nodes ++ [nd], aliases := as } with
    | error e => exact ⟨rfl, by intro _ h; cases h⟩
    | ok s2 =>
      obtain ⟨l, _, c⟩ := nodeAdd_ok hn
      simp only at l c
      have hc : s2.ctx.length ≤ m := by rw [c]; exact h.ctx
      have hl : s2.nodes.length ≤ m + 1 := by rw [l]; have := h.nodes; simp; omega
      simp only [hr _ hc, if_true]
      refine ⟨trivial, ?_⟩
      intro s' hs'
      have h3 := h2 _ hn
      cases b with
      | true => cases hs'; exact ⟨hl, by simp; omega, h3⟩
      | false => cases hs'; exact ⟨hl, by omega, h3⟩

theorem composeEvent_small {room} {m : Nat} (hr : ∀ k, k ≤ m → room k = true) {s : CState} (h : Small m s) (e : Event) :
    composeEvent room e s = composeEvent allRoom e s ∧ ∀ s', composeEvent room e s = .ok s' → Small (m + 1) s' := by
  have close : ∀ isKind, ∀ s', closeNode isKind e.stop s = .ok s' → Small (m + 1) s' := by
    intro isKind s' hs'
    unfold closeNode at hs'
    split at hs'
    · cases hs'
    next c cs hctx =>
      split at hs'
      · cases hs'
      next nd hn =>
        split at hs'
        · cases hs'
          refine ⟨by simp; exact Nat.le_succ_of_le h.nodes, ?_, ?_⟩
          · have := h.ctx; rw [hctx] at this; simp at this ⊢; omega
          · intro x hx
            rcases List.mem_or_eq_of_mem_set hx with hx | rfl
            · exact Nat.le_succ_of_le (h.entries x hx)
            · exact Nat.le_succ_of_le (h.entries nd (List.mem_of_getElem? hn))
        · cases hs'
  unfold composeEvent
  cases e.data with
  | alias a =>
    simp only [loadAlias]
    split
    next d hd =>
      obtain ⟨h1, h2⟩ := nodeAdd_small hr h.entries d.index
      refine ⟨h1, fun s' hs' => ?_⟩
      obtain ⟨l, _, c⟩ := nodeAdd_ok hs'
      exact ⟨by rw [l]; exact Nat.le_succ_of_le h.nodes, by rw [c]; exact Nat.le_succ_of_le h.ctx, h2 _ hs'⟩
    · exact ⟨rfl, by intro _ h; cases h⟩
  | scalar a t v p q st => exact addNode_small hr h _ rfl _ _
  | sequenceStart a t i st => exact addNode_small hr h _ rfl _ _
  | mappingStart a t i st => exact addNode_small hr h _ rfl _ _
  | sequenceEnd => exact ⟨rfl, close _⟩
  | mappingEnd => exact ⟨rfl, close _⟩
  | _ => exact ⟨rfl, by intro _ h; cases h⟩

theorem composeAll_small {room} {m : Nat} (w : List Event) {s : CState} (hr : ∀ k, k < m + w.length → room k = true) (h : Small m s) :
    composeAll room w s = composeAll allRoom w s := by
  induction w generalizing s m with
  | nil => rfl
  | cons e w ih =>
    simp only [composeAll]
    obtain ⟨h1, h2⟩ := composeEvent_small (room := room) (fun k hk => hr k (by simp; omega)) h e
    rw [← h1]
    cases hc : composeEvent room e s with
    | error e => rfl
    | ok s1 => exact ih (m := m + 1) (fun k hk => hr k (by simp at hk ⊢; omega)) (h2 s1 hc)

/-! ### No failed assertion -/

/-- The open collections match the frames of the event automaton. -/
inductive CRel (nodes : List Node) : List Nat → List Frame → Prop
  | root {f} : f = .docNode ∨ f = .docEnd → CRel nodes [] [f]
  | seq {c cs fs nd} : nodes[c - 1]? = some nd → nd.data.isSeq = true → CRel nodes cs fs → CRel nodes (c :: cs) (.seq :: fs)
  | map {c cs fs nd f} : f = .mapKey ∨ f = .mapVal → nodes[c - 1]? = some nd → nd.data.isMap = true → CRel nodes cs fs →
      CRel nodes (c :: cs) (f :: fs)

/-- Nodes keep their kinds. -/
def Keeps (ns ms : List Node) : Prop := ∀ (i : Nat) (nd : Node), ns[i]? = some nd → ∃ nd' : Node, ms[i]? = some nd' ∧
  nd'.data.isSeq = nd.data.isSeq ∧ nd'.data.isMap = nd.data.isMap

theorem Keeps.append (ns ms : List Node) : Keeps ns (ns ++ ms) := by
  intro i nd h
  obtain ⟨hlt, _⟩ := List.getElem?_eq_some_iff.mp h
  exact ⟨nd, by rw [List.getElem?_append_left hlt, h], rfl, rfl⟩

theorem Keeps.trans {a b c : List Node} (h1 : Keeps a b) (h2 : Keeps b c) : Keeps a c := by
  intro i nd h
  obtain ⟨x, hx, s1, m1⟩ := h1 i nd h
  obtain ⟨y, hy, s2, m2⟩ := h2 i x hx
  exact ⟨y, hy, s2.trans s1, m2.trans m1⟩

theorem Keeps.set {ns : List Node} {c : Nat} {nd nd' : Node} (h : ns[c]? = some nd) (h1 : nd'.data.isSeq = nd.data.isSeq)
    (h2 : nd'.data.isMap = nd.data.isMap) : Keeps ns (ns.set c nd') := by
  intro i x hx
  obtain ⟨hlt, _⟩ := List.getElem?_eq_some_iff.mp h
  by_cases hic : c = i
  · subst hic
    rw [h] at hx; cases hx
    exact ⟨nd', by simp [hlt], h1, h2⟩
  · exact ⟨x, by rw [List.getElem?_set_ne hic]; exact hx, rfl, rfl⟩

theorem CRel.keeps {ns ms : List Node} (hk : Keeps ns ms) {cs : List Nat} {fs : List Frame} (h : CRel ns cs fs) : CRel ms cs fs := by
  induction h with
  | root h => exact .root h
  | seq h1 h2 _ ih =>
    obtain ⟨x, hx, s1, _⟩ := hk _ _ h1
    exact .seq hx (by rw [s1]; exact h2) ih
  | map h0 h1 h2 _ ih =>
    obtain ⟨x, hx, _, m1⟩ := hk _ _ h1
    exact .map h0 hx (by rw [m1]; exact h2) ih

theorem addChild_kind {room} {i : Nat} {nd nd' : Node} (h : addChild room i nd = .ok nd') :
    nd'.data.isSeq = nd.data.isSeq ∧ nd'.data.isMap = nd.data.isMap := by
  unfold addChild at h
  split at h
  next hd => split at h <;> cases h; rw [hd]; exact ⟨rfl, rfl⟩
  next hd => split at h <;> cases h; rw [hd]; exact ⟨rfl, rfl⟩
  · cases h

theorem addToPairs_noub {room} {ps : List (Nat × Nat)} {i : Nat} : addToPairs room ps i ≠ .error .ub := by
  unfold addToPairs
  intro h
  split at h
  · split at h
    · cases h
    · split at h <;> cases h
  · split at h <;> cases h

theorem addChild_noub {room} {i : Nat} {nd : Node} (h : nd.data.isSeq = true ∨ nd.data.isMap = true) :
    addChild room i nd ≠ .error .ub := by
  unfold addChild
  cases hd : nd.data with
  | scalar => rw [hd] at h; rcases h with h | h <;> cases h
  | sequence items st => simp only; split <;> simp
  | mapping ps st =>
    simp only
    cases hp : addToPairs room ps i with
    | ok => simp
    | error e => simp only [ne_eq, Except.error.injEq]; rintro rfl; exact addToPairs_noub hp

/-- Adding a node below the frame `f`. -/
theorem nodeAdd_rel {room} {i : Nat} {s : CState} {f g : Frame} {K : List Frame} (h : CRel s.nodes s.ctx (f :: K))
    (hg : f.advance = some g) : nodeAdd room i s ≠ .error .ub ∧
      ∀ s', nodeAdd room i s = .ok s' → CRel s'.nodes s'.ctx (g :: K) ∧ Keeps s.nodes s'.nodes := by
  obtain ⟨nodes, aliases, ctx⟩ := s
  have key : ∀ (c : Nat) (cs : List Nat) (nd : Node), ctx = c :: cs → nodes[c - 1]? = some nd →
      (nd.data.isSeq = true ∨ nd.data.isMap = true) →
      nodeAdd room i ⟨nodes, aliases, ctx⟩ ≠ .error .ub ∧ ∀ s', nodeAdd room i ⟨nodes, aliases, ctx⟩ = .ok s' →
        Keeps nodes s'.nodes ∧ s'.ctx = ctx := by
    intro c cs nd hctx hn hk
    subst hctx
    simp only [nodeAdd, hn]
    cases ha : addChild room i nd with
    | error e => exact ⟨by simp only [ne_eq, Except.error.injEq]; rintro rfl; exact addChild_noub hk ha, by intro _ h; cases h⟩
    | ok nd' =>
      refine ⟨by simp, ?_⟩
      intro s' hs'
      cases hs'
      obtain ⟨k1, k2⟩ := addChild_kind ha
      exact ⟨Keeps.set hn k1 k2, rfl⟩
  simp only at h
  cases h with
  | root hor =>
    simp only [nodeAdd]
    refine ⟨by simp, ?_⟩
    intro s' hs'
    cases hs'
    rcases hor with rfl | rfl
    · cases hg; exact ⟨.root (.inr rfl), fun i nd h => ⟨nd, h, rfl, rfl⟩⟩
    · cases hg
  | seq h1 h2 h3 =>
    obtain ⟨k1, k2⟩ := key _ _ _ rfl h1 (.inl h2)
    refine ⟨k1, fun s' hs' => ?_⟩
    obtain ⟨k3, k4⟩ := k2 s' hs'
    cases hg
    exact ⟨by rw [k4]; exact (CRel.seq h1 h2 h3).keeps k3, k3⟩
  | map h0 h1 h2 h3 =>
    obtain ⟨k1, k2⟩ := key _ _ _ rfl h1 (.inr h2)
    refine ⟨k1, fun s' hs' => ?_⟩
    obtain ⟨k3, k4⟩ := k2 s' hs'
    rw [k4]
    rcases h0 with rfl | rfl <;> cases hg
    · exact ⟨(CRel.map (.inr rfl) h1 h2 h3).keeps k3, k3⟩
    · exact ⟨(CRel.map (.inl rfl) h1 h2 h3).keeps k3, k3⟩

theorem addNode_rel {room} {nd : Node} {a : Option Text} {b : Bool} {s : CState} {f g : Frame} {K : List Frame}
    (h : CRel s.nodes s.ctx (f :: K)) (hg : f.advance = some g) : addNode room nd a b s ≠ .error .ub ∧
      ∀ s', addNode room nd a b s = .ok s' →
        (b = false → CRel s'.nodes s'.ctx (g :: K)) ∧
        (b = true → nd.data.isSeq = true → CRel s'.nodes s'.ctx (.seq :: g :: K)) ∧
        (b = true → nd.data.isMap = true → CRel s'.nodes s'.ctx (.mapKey :: g :: K)) := by
  unfold addNode
  by_cases hr : room s.nodes.length = true
  · simp only [hr, if_true]
    cases hra : registerAnchor (s.nodes.length + 1) nd.start a s.aliases with
    | error e =>
      refine ⟨?_, by intro _ h; cases h⟩
      simp only [ne_eq, Except.error.injEq]; rintro rfl
      rcases register_iff (index := s.nodes.length + 1) (mark := nd.start) (a := a) (as := s.aliases) with ⟨_, _, e, _⟩ | ⟨_, _, e⟩ <;>
        rw [hra] at e <;> cases e
    | ok as =>
      simp only
      obtain ⟨n1, n2⟩ := nodeAdd_rel (room := room) (i := s.nodes.length + 1)
        (s := { s with nodes := s.nodes ++ [nd], aliases := as }) (h.keeps (Keeps.append _ _)) hg
      cases hn : nodeAdd room (s.nodes.length + 1) { s with nodes := s.nodes ++ [nd], aliases := as } with
      | error e => exact ⟨by simp only [ne_eq, Except.error.injEq]; rintro rfl; exact n1 hn, by intro _ h; cases h⟩
      | ok s2 =>
        obtain ⟨r, k⟩ := n2 s2 hn
        simp only at k ⊢
        obtain ⟨nd', e1, e2, e3⟩ := k s.nodes.length nd (by simp)
        cases b with
        | false =>
          refine ⟨by simp, ?_⟩
          intro s' hs'
          cases hs'
          exact ⟨fun _ => r, by simp, by simp⟩
        | true =>
          simp only [if_true]
          refine ⟨by split <;> simp, ?_⟩
          intro s' hs'
          split at hs'
          · cases hs'
            exact ⟨by simp, fun _ hk => .seq (nd := nd') (by simpa using e1) (by rw [e2]; exact hk) r,
              fun _ hk => .map (nd := nd') (.inl rfl) (by simpa using e1) (by rw [e3]; exact hk) r⟩
          · cases hs'
  · simp only [hr]
    exact ⟨by simp, by intro _ h; simp at h⟩

/-- An event allowed by the automaton fails no assertion. -/
theorem composeEvent_rel {room} {e : Event} {s : CState} {fs gs : List Frame} (h : CRel s.nodes s.ctx fs)
    (hs : (Cfg.doc fs).step e.data = some (.doc gs)) : composeEvent room e s ≠ .error .ub ∧
      ∀ s', composeEvent room e s = .ok s' → CRel s'.nodes s'.ctx gs := by
  cases fs with
  | nil => generalize s.ctx = c at h; cases h
  | cons f K =>
  unfold composeEvent
  cases hd : e.data with
  | streamStart => rw [hd] at hs; cases f <;> cases hs
  | streamEnd => rw [hd] at hs; cases f <;> cases hs
  | documentStart => rw [hd] at hs; cases f <;> cases hs
  | documentEnd => rw [hd] at hs; cases f <;> cases K <;> cases hs
  | alias a =>
    rw [hd] at hs
    simp only [Cfg.step, Option.map_eq_some_iff] at hs
    obtain ⟨g, hg, hgs⟩ := hs
    cases hgs
    simp only [loadAlias]
    split
    · obtain ⟨n1, n2⟩ := nodeAdd_rel (room := room) h hg
      exact ⟨n1 , fun s' hs' => (n2 s' hs').1⟩
    · exact ⟨by simp, by intro _ h; cases h⟩
  | scalar a t v p q st =>
    rw [hd] at hs
    simp only [Cfg.step, Option.map_eq_some_iff] at hs
    obtain ⟨g, hg, hgs⟩ := hs
    cases hgs
    obtain ⟨n1, n2⟩ := addNode_rel (room := room) (b := false) h hg
    exact ⟨n1, fun s' hs' => (n2 s' hs').1 rfl⟩
  | sequenceStart a t i st =>
    rw [hd] at hs
    simp only [Cfg.step, Option.map_eq_some_iff] at hs
    obtain ⟨g, hg, hgs⟩ := hs
    cases hgs
    obtain ⟨n1, n2⟩ := addNode_rel (room := room) (b := true) h hg
    exact ⟨n1, fun s' hs' => (n2 s' hs').2.1 rfl rfl⟩
  | mappingStart a t i st =>
    rw [hd] at hs
    simp only [Cfg.step, Option.map_eq_some_iff] at hs
    obtain ⟨g, hg, hgs⟩ := hs
    cases hgs
    obtain ⟨n1, n2⟩ := addNode_rel (room := room) (b := true) h hg
    exact ⟨n1, fun s' hs' => (n2 s' hs').2.2 rfl rfl⟩
  | sequenceEnd =>
    rw [hd] at hs
    simp only
    generalize hctx : s.ctx = ctx at h
    cases h with
    | root hor => rcases hor with rfl | rfl <;> cases hs
    | seq h1 h2 h3 =>
      cases hs
      simp only [closeNode, hctx, h1, h2, if_true]
      refine ⟨by simp, ?_⟩
      intro s' hs'
      cases hs'
      exact h3.keeps (Keeps.set h1 (by rfl) (by rfl))
    | map h0 => rcases h0 with rfl | rfl <;> cases hs
  | mappingEnd =>
    rw [hd] at hs
    simp only
    generalize hctx : s.ctx = ctx at h
    cases h with
    | root hor => rcases hor with rfl | rfl <;> cases hs
    | seq h1 h2 h3 => cases hs
    | map h0 h1 h2 h3 =>
      rcases h0 with rfl | rfl
      · cases hs
        simp only [closeNode, hctx, h1, h2, if_true]
        refine ⟨by simp, ?_⟩
        intro s' hs'
        cases hs'
        exact h3.keeps (Keeps.set h1 (by rfl) (by rfl))
      · cases hs

end LibYaml
