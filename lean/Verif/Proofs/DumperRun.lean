import Verif.Proofs.Dumper
import Verif.Proofs.Loader

/-! The events of a dump, and what composing them gives. -/

namespace LibYaml

open Spec

variable {τ : Type}

/-! ### The events -/

/-- Anchor text for anchor id `k` (0: none). -/
def idText (k : Nat) : Option Text := if k = 0 then none else some (generateAnchor k)

/-- The events of a walk when `an` gives the anchor ids. -/
def walkEvs (nodes : List Node) (an : Nat → Nat) (w : List Step) : List EvData := walkEvents nodes (fun i => idText (an i)) w

/-- Give the events to the emitter one after the other until it refuses one. -/
def feedEvs (emit : Event → τ → Bool × τ) : List EvData → τ → Bool × τ
  | [], o => (true, o)
  | d :: ds, o =>
    match emit { data := d } o with
    | (true, o) => feedEvs emit ds o
    | (false, o) => (false, o)

theorem feedEvs_append (emit : Event → τ → Bool × τ) (v w : List EvData) (o : τ) :
    feedEvs emit (v ++ w) o = match feedEvs emit v o with
      | (true, o) => feedEvs emit w o
      | (false, o) => (false, o) := by
  induction v generalizing o with
  | nil => rfl
  | cons d v ih =>
    simp only [List.cons_append, feedEvs]
    rcases emit { data := d } o with ⟨b, o1⟩
    cases b with
    | false => rfl
    | true => exact ih o1

theorem dumpPairs_eq (f : Nat → DState τ → Except Fail (Bool × DState τ)) (ps : List (Nat × Nat)) (s : DState τ) :
    dumpPairs f ps s = dumpItems f (ps.flatMap fun p => [p.1, p.2]) s := by
  induction ps generalizing s with
  | nil => rfl
  | cons p ps ih =>
    simp only [dumpPairs, List.flatMap_cons, List.cons_append, List.nil_append, dumpItems]
    rcases f p.1 s with e | ⟨b, s1⟩
    · rfl
    · cases b with
      | false => rfl
      | true =>
        simp only
        rcases f p.2 s1 with e | ⟨b, s2⟩
        · rfl
        · cases b with
          | false => rfl
          | true => exact ih s2

/-- The table of the dumper when the nodes `S` have been serialized. -/
def dTab (N : Nat) (c an : Nat → Nat) (S : List Nat) : List Anch := tab N fun i => { references := c i, anchor := an i, serialized := decide (i ∈ S) }

theorem dTab_set {N : Nat} {c an : Nat → Nat} {S : List Nat} {i : Nat} (h0 : 0 < i) :
    (dTab N c an S).set (i - 1) { references := c i, anchor := an i, serialized := true } = dTab N c an (i :: S) := by
  have := tab_set (N := N) (fun i => ({ references := c i, anchor := an i, serialized := decide (i ∈ S) } : Anch))
    (fun j => { references := c j, anchor := an j, serialized := decide (j ∈ i :: S) }) h0 (by
      intro j hj
      have : (j ∈ i :: S) = (j ∈ S) := by simp [hj]
      simp only [this])
  unfold dTab
  rw [← this]
  simp

/-- What dumping has done: the events are given to the emitter until it refuses one. -/
def Dumped (emit : Event → τ → Bool × τ) (evs : List EvData) (T : List Anch) (o : τ) (r : Except Fail (Bool × DState τ)) : Prop :=
  ∃ s', r = .ok ((feedEvs emit evs o).1, s') ∧ s'.out = (feedEvs emit evs o).2 ∧ ((feedEvs emit evs o).1 = true → s'.anchors = T)

theorem Dumped.one (emit : Event → τ → Bool × τ) (d : EvData) (T : List Anch) (o : τ) :
    Dumped emit [d] T o (.ok (emitEv emit d { anchors := T, out := o })) := by
  unfold Dumped emitEv
  simp only [feedEvs]
  rcases emit { data := d } o with ⟨b, o1⟩
  cases b <;> exact ⟨_, rfl, rfl, fun _ => rfl⟩

theorem Dumped.cons {emit : Event → τ → Bool × τ} {v w : List EvData} {T T' : List Anch} {o : τ} {i : Nat} {is : List Nat}
    {f : Nat → DState τ → Except Fail (Bool × DState τ)} {s : DState τ} (h : Dumped emit v T o (f i s))
    (h' : ∀ o', Dumped emit w T' o' (dumpItems f is { anchors := T, out := o' })) : Dumped emit (v ++ w) T' o (dumpItems f (i :: is) s) := by
  obtain ⟨s1, hr, ho, ha⟩ := h
  unfold Dumped
  rw [feedEvs_append]
  simp only [dumpItems, hr]
  rcases hf : feedEvs emit v o with ⟨b, o1⟩
  rw [hf] at ho ha
  cases b with
  | false => exact ⟨s1, rfl, ho, fun h => nomatch h⟩
  | true =>
    have hs1 : s1 = { anchors := T, out := o1 } := by
      cases s1; simp only at ho ha; rw [ho, ha trivial]
    subst hs1
    exact h' o1

theorem Dumped.coll {emit : Event → τ → Bool × τ} {w : List EvData} {T T' : List Anch} {o : τ} {d d' : EvData}
    {kids : DState τ → Except Fail (Bool × DState τ)} (h' : ∀ o', Dumped emit w T' o' (kids { anchors := T, out := o' })) :
    Dumped emit (d :: (w ++ [d'])) T' o (dumpColl emit d d' kids { anchors := T, out := o }) := by
  unfold Dumped dumpColl emitEv
  simp only [feedEvs]
  rcases emit { data := d } o with ⟨b, o1⟩
  cases b with
  | false => exact ⟨_, rfl, rfl, fun h => nomatch h⟩
  | true =>
    simp only
    obtain ⟨s1, hr, ho, ha⟩ := h' o1
    rw [feedEvs_append, hr]
    rcases hf : feedEvs emit w o1 with ⟨b, o2⟩
    rw [hf] at ho ha
    cases b with
    | false => exact ⟨_, rfl, ho, fun h => nomatch h⟩
    | true =>
      have hs1 : s1 = { anchors := T', out := o2 } := by
        cases s1; simp only at ho ha; rw [ho, ha trivial]
      subst hs1
      simp only [feedEvs]
      rcases emit { data := d' } o2 with ⟨b, o3⟩
      cases b <;> exact ⟨_, rfl, rfl, fun _ => rfl⟩

/-- `yaml_emitter_dump_node` sends the events of the walk. -/
theorem dump_walk {nodes S ids w S'} (h : NodeWalk nodes S ids w S') (emit : Event → τ → Bool × τ) (c an : Nat → Nat) :
    (∀ i, .again i ∈ w → an i ≠ 0) → ∀ (f : Nat), nodes.length < f + S.length → S.Nodup → (∀ i ∈ S, 0 < i ∧ i ≤ nodes.length) →
    ∀ o, Dumped emit (walkEvs nodes an w) (dTab nodes.length c an S') o
      (dumpItems (dumpNode emit nodes f) ids { anchors := dTab nodes.length c an S, out := o }) := by
  have fpos : ∀ {S : List Nat} {f : Nat}, nodes.length < f + S.length → S.Nodup → (∀ i ∈ S, 0 < i ∧ i ≤ nodes.length) → ∃ g, f = g + 1 := by
    intro S f hf hn hv
    have := nodup_length hn hv
    exact ⟨f - 1, by omega⟩
  have htab : ∀ {S : List Nat} {i : Nat}, 0 < i → i ≤ nodes.length → (dTab nodes.length c an S)[i - 1]? =
      some { references := c i, anchor := an i, serialized := decide (i ∈ S) } := by
    intro S i h0 h1
    exact tab_get (fun i => ({ references := c i, anchor := an i, serialized := decide (i ∈ S) } : Anch)) h0 h1
  induction h with
  | nil => intro _ f _ _ _ o; exact ⟨_, rfl, rfl, fun _ => rfl⟩
  | @again S i is w S' hi hw ih =>
    intro hal f hf hn hv o
    obtain ⟨g, rfl⟩ := fpos hf hn hv
    obtain ⟨h0, hle⟩ := hv i hi
    have hnd : nodes[i - 1]? = some nodes[i - 1] := List.getElem?_eq_getElem (by omega)
    have hn0 : an i ≠ 0 := hal i (.head _)
    have hev : walkEvs nodes an (.again i :: w) = [.alias (generateAnchor (an i))] ++ walkEvs nodes an w := by
      simp [walkEvs, walkEvents, stepEvent, idText, hn0]
    rw [hev]
    refine Dumped.cons (T := dTab nodes.length c an S) ?_ (ih (fun j hj => hal j (.tail _ hj)) (g + 1) hf hn hv)
    simp only [dumpNode]
    rw [if_neg (by omega)]
    simp only [hnd, htab h0 hle, decide_eq_true hi, if_true, anchorText, if_neg hn0]
    exact Dumped.one emit _ _ o
  | @leaf S i is nd w S' h0 hni hnd hc hw ih =>
    intro hal f hf hn hv o
    obtain ⟨g, rfl⟩ := fpos hf hn hv
    have hle : i ≤ nodes.length := by obtain ⟨hlt, _⟩ := List.getElem?_eq_some_iff.mp hnd; omega
    have hv' : ∀ j ∈ i :: S, 0 < j ∧ j ≤ nodes.length := by
      intro j hj
      rcases List.mem_cons.mp hj with rfl | hj
      · exact ⟨h0, hle⟩
      · exact hv j hj
    rcases nd with ⟨t, d, m1, m2⟩
    cases d with
    | sequence => exact absurd trivial hc
    | mapping => exact absurd trivial hc
    | scalar v st =>
      have hev : walkEvs nodes an (.leaf i :: w) =
          [.scalar (idText (an i)) (some t) v (decide (t = strTag)) (decide (t = strTag)) st] ++ walkEvs nodes an w := by
        simp [walkEvs, walkEvents, stepEvent, hnd]
      rw [hev]
      refine Dumped.cons (T := dTab nodes.length c an (i :: S)) ?_ (ih (fun j hj => hal j (.tail _ hj)) (g + 1)
        (by simp only [List.length_cons]; omega) (List.nodup_cons.mpr ⟨hni, hn⟩) hv')
      simp only [dumpNode]
      rw [if_neg (by omega)]
      simp only [hnd, htab h0 hle, decide_eq_false hni, Bool.false_eq_true, if_false, dTab_set h0]
      exact Dumped.one emit _ _ o
  | @coll S i is nd k w S1 S' h0 hni hnd hc hw1 hw2 ih1 ih2 =>
    intro hal f hf hn hv o
    obtain ⟨g, rfl⟩ := fpos hf hn hv
    have hle : i ≤ nodes.length := by obtain ⟨hlt, _⟩ := List.getElem?_eq_some_iff.mp hnd; omega
    have hv' : ∀ j ∈ i :: S, 0 < j ∧ j ≤ nodes.length := by
      intro j hj
      rcases List.mem_cons.mp hj with rfl | hj
      · exact ⟨h0, hle⟩
      · exact hv j hj
    have hn' : (i :: S).Nodup := List.nodup_cons.mpr ⟨hni, hn⟩
    have hlen := walk_length hw1
    simp only [List.length_cons] at hlen
    have hkids := ih1 (fun j hj => hal j (.tail _ (List.mem_append_left _ hj))) g (by simp only [List.length_cons]; omega) hn' hv'
    have hrest := ih2 (fun j hj => hal j (.tail _ (List.mem_append_right _ (.tail _ hj)))) (g + 1) (by omega) (walk_nodup hw1 hn')
      (walk_valid hw1 hv')
    rcases nd with ⟨t, d, m1, m2⟩
    cases d with
    | scalar => exact absurd hc (by simp [isColl])
    | sequence items st =>
      have hev : walkEvs nodes an (.enter i :: (k ++ .leave i :: w)) =
          (.sequenceStart (idText (an i)) (some t) (decide (t = seqTag)) st :: (walkEvs nodes an k ++ [.sequenceEnd])) ++ walkEvs nodes an w := by
        simp [walkEvs, walkEvents, stepEvent, hnd]
      rw [hev]
      refine Dumped.cons (T := dTab nodes.length c an S1) ?_ hrest
      simp only [dumpNode]
      rw [if_neg (by omega)]
      simp only [hnd, htab h0 hle, decide_eq_false hni, Bool.false_eq_true, if_false, dTab_set h0]
      exact Dumped.coll hkids
    | mapping ps st =>
      have hev : walkEvs nodes an (.enter i :: (k ++ .leave i :: w)) =
          (.mappingStart (idText (an i)) (some t) (decide (t = mapTag)) st :: (walkEvs nodes an k ++ [.mappingEnd])) ++ walkEvs nodes an w := by
        simp [walkEvs, walkEvents, stepEvent, hnd]
      rw [hev]
      refine Dumped.cons (T := dTab nodes.length c an S1) ?_ hrest
      simp only [dumpNode]
      rw [if_neg (by omega)]
      simp only [hnd, htab h0 hle, decide_eq_false hni, Bool.false_eq_true, if_false, dTab_set h0]
      refine Dumped.coll fun o' => ?_
      rw [dumpPairs_eq]
      exact hkids o'

/-! ### Anchor texts -/

/-- The number that decimal digits denote. -/
def digitsVal (acc : Nat) : Text → Nat
  | [] => acc
  | c :: t => digitsVal (acc * 10 + (c - 48)) t

theorem digitsVal_append (acc : Nat) (s t : Text) : digitsVal acc (s ++ t) = digitsVal (digitsVal acc s) t := by
  induction s generalizing acc with
  | nil => rfl
  | cons c s ih => exact ih _

theorem decimalAux_val (f n : Nat) (h : n < f) : digitsVal 0 (decimalAux f n) = n := by
  induction f generalizing n with
  | zero => omega
  | succ f ih =>
    simp only [decimalAux]
    by_cases h1 : n < 10
    · rw [if_pos h1]
      show 0 * 10 + (48 + n - 48) = n
      omega
    · rw [if_neg h1, digitsVal_append, ih _ (by omega)]
      show n / 10 * 10 + (48 + n % 10 - 48) = n
      omega

theorem decimal_val (n : Nat) : digitsVal 0 (decimal n) = n := decimalAux_val _ _ (by omega)

theorem digitsVal_zeros (k : Nat) (t : Text) : digitsVal 0 (List.replicate k 48 ++ t) = digitsVal 0 t := by
  induction k with
  | zero => rfl
  | succ k ih => exact ih

theorem generateAnchor_inj {a b : Nat} (h : generateAnchor a = generateAnchor b) : a = b := by
  unfold generateAnchor at h
  have h := congrArg (digitsVal 0) (List.append_cancel_left h)
  rwa [digitsVal_zeros, digitsVal_zeros, decimal_val, decimal_val] at h

theorem decimalAux_digits (f n : Nat) : ∀ c ∈ decimalAux f n, 48 ≤ c ∧ c ≤ 57 := by
  induction f generalizing n with
  | zero => simp [decimalAux]
  | succ f ih =>
    simp only [decimalAux]
    by_cases h1 : n < 10
    · rw [if_pos h1]; simp; omega
    · rw [if_neg h1]
      intro c hc
      rcases List.mem_append.mp hc with hc | hc
      · exact ih _ c hc
      · rw [List.mem_singleton] at hc; omega

theorem decimalAux_length (f n k : Nat) (hk : 0 < k) (h : n < 10 ^ k) : (decimalAux f n).length ≤ k := by
  induction k generalizing f n with
  | zero => omega
  | succ k ih =>
    cases f with
    | zero => simp [decimalAux]
    | succ f =>
      simp only [decimalAux]
      by_cases h1 : n < 10
      · rw [if_pos h1]; simp
      · rw [if_neg h1]
        simp only [List.length_append, List.length_singleton]
        have hk0 : 0 < k := by
          rcases Nat.eq_zero_or_pos k with rfl | hk
          · simp at h; omega
          · exact hk
        have := ih f (n / 10) hk0 (by rw [Nat.div_lt_iff_lt_mul (by omega)]; rw [Nat.pow_succ] at h; exact h)
        omega

theorem generateAnchor_length {id : Nat} (h : id ≤ 2147483647) : (generateAnchor id).length + 1 ≤ 16 := by
  have hd : (decimal id).length ≤ 10 := decimalAux_length _ _ 10 (by omega) (by omega)
  simp only [generateAnchor, List.length_append, List.length_replicate]
  have : (lit ['i', 'd']).length = 2 := rfl
  omega

theorem generateAnchor_chars (id : Nat) : generateAnchor id ≠ [] ∧
    ∀ c ∈ generateAnchor id, (48 ≤ c ∧ c ≤ 57) ∨ (65 ≤ c ∧ c ≤ 90) ∨ (97 ≤ c ∧ c ≤ 122) := by
  have hl : lit ['i', 'd'] = [105, 100] := rfl
  unfold generateAnchor
  rw [hl]
  refine ⟨by simp, ?_⟩
  intro c hc
  simp only [List.cons_append, List.nil_append, List.mem_cons, List.mem_append, List.mem_replicate] at hc
  rcases hc with rfl | rfl | ⟨-, rfl⟩ | hc
  · exact .inr (.inr (by omega))
  · exact .inr (.inr (by omega))
  · exact .inl (by omega)
  · exact .inl (decimalAux_digits _ _ c hc)

/-! ### Composing the events gives the graph back -/

/-- A bound anchor for each anchored node in the list (last one first). -/
def binds (an pos : Nat → Nat) (S : List Nat) : List (Text × Nat) :=
  S.reverse.filterMap fun i => (idText (an i)).map fun x => (x, pos i)

theorem binds_cons (an pos : Nat → Nat) (i : Nat) (S : List Nat) :
    binds an pos (i :: S) = bindAnchor (binds an pos S) (idText (an i)) (pos i) := by
  unfold binds bindAnchor
  simp only [List.reverse_cons, List.filterMap_append]
  cases h : idText (an i) with
  | none => simp [h]
  | some x => simp [h]

/-- Node `nd` with its children renumbered; marks are those of dumper events. -/
def renumber (pos : Nat → Nat) (nd : Node) : Node :=
  match nd.data with
  | .scalar v s => { tag := nodeTag strTag (some nd.tag), data := .scalar v s, start := {}, stop := {} }
  | .sequence items s => { tag := nodeTag seqTag (some nd.tag), data := .sequence (items.map pos) s, start := {}, stop := {} }
  | .mapping ps s => { tag := nodeTag mapTag (some nd.tag), data := .mapping (ps.map fun p => (pos p.1, pos p.2)) s, start := {}, stop := {} }

/-- The renumbered nodes. -/
def renumbered (nodes : List Node) (pos : Nat → Nat) (l : List Nat) : List Node := l.filterMap fun i => (nodes[i - 1]?).map (renumber pos)

/-- Events of the dumper carry no marks. -/
def evs (l : List EvData) : List Event := l.map fun d => { data := d }

theorem evs_append (v w : List EvData) : evs (v ++ w) = evs v ++ evs w := List.map_append

theorem evs_data (l : List EvData) : (evs l).map Event.data = l := by
  induction l with
  | nil => rfl
  | cons d l ih => exact congrArg (d :: ·) ih

theorem rep_nodes_inv {A n w ids A' ns} (h : Rep .nodes A n w ids A' ns) :
    (w = [] ∧ ids = [] ∧ A' = A ∧ ns = []) ∨
    ∃ v i A1 ms u js os, w = v ++ u ∧ ids = i :: js ∧ ns = ms ++ os ∧ Rep .node A n v [i] A1 ms ∧ Rep .nodes A1 (n + ms.length) u js A' os := by
  cases h with
  | nodesNil => exact .inl ⟨rfl, rfl, rfl, rfl⟩
  | nodesCons h1 h2 =>
    obtain ⟨i, rfl⟩ := rep_one h1
    exact .inr ⟨_, i, _, _, _, _, _, rfl, rfl, rfl, h1, h2⟩

theorem rep_to_pairs (ps : List (Nat × Nat)) : ∀ {A n w A' ns}, Rep .nodes A n w (ps.flatMap fun p => [p.1, p.2]) A' ns →
    Rep .pairs A n w (ps.flatMap fun p => [p.1, p.2]) A' ns := by
  induction ps with
  | nil =>
    intro A n w A' ns h
    rcases rep_nodes_inv h with ⟨rfl, -, rfl, rfl⟩ | ⟨_, _, _, _, _, _, _, _, h, _⟩
    · exact .pairsNil
    · cases h
  | cons p ps ih =>
    intro A n w A' ns h
    rcases rep_nodes_inv h with ⟨-, h, -⟩ | ⟨v, i, A1, ms, u, js, os, rfl, hids, rfl, h1, h2⟩
    · cases h
    · simp only [List.flatMap_cons, List.cons_append, List.nil_append, List.cons.injEq] at hids
      obtain ⟨rfl, rfl⟩ := hids
      rcases rep_nodes_inv h2 with ⟨-, h, -⟩ | ⟨v', i', A2, ms', u', js', os', rfl, hids, rfl, h3, h4⟩
      · cases h
      · simp only [List.cons.injEq] at hids
        obtain ⟨rfl, rfl⟩ := hids
        exact .pairsCons h1 h3 (ih h4)

theorem map_flat (pos : Nat → Nat) (ps : List (Nat × Nat)) :
    (ps.flatMap fun p => [p.1, p.2]).map pos = (ps.map fun p => (pos p.1, pos p.2)).flatMap fun p => [p.1, p.2] := by
  induction ps with
  | nil => rfl
  | cons p ps ih => simp [ih]

theorem walk_full_node {nodes S ids w S'} (h : NodeWalk nodes S ids w S') : ∀ i ∈ fulls w, ∃ nd, nodes[i - 1]? = some nd := by
  induction h with
  | nil => simp [fulls]
  | again _ _ ih => exact ih
  | leaf _ _ hn _ _ ih =>
    intro i hi
    rcases List.mem_cons.mp hi with rfl | hi
    · exact ⟨_, hn⟩
    · exact ih i hi
  | coll _ _ hn _ _ _ ih1 ih2 =>
    intro i hi
    simp only [fulls, fulls_append, List.mem_cons, List.mem_append] at hi
    rcases hi with rfl | hi | hi
    · exact ⟨_, hn⟩
    · exact ih1 i hi
    · exact ih2 i hi

theorem renumbered_get {nodes : List Node} {pos : Nat → Nat} {l : List Nat} (h : ∀ i ∈ l, ∃ nd, nodes[i - 1]? = some nd) (k : Nat) :
    (renumbered nodes pos l)[k]? = (l[k]?).bind fun i => (nodes[i - 1]?).map (renumber pos) := by
  induction l generalizing k with
  | nil => rfl
  | cons i l ih =>
    obtain ⟨nd, hnd⟩ := h i (.head _)
    have hc : renumbered nodes pos (i :: l) = renumber pos nd :: renumbered nodes pos l := by simp [renumbered, hnd]
    rw [hc]
    cases k with
    | zero => simp [hnd]
    | succ k => simpa using ih (fun i hi => h i (.tail _ hi)) k

theorem renumbered_length {nodes : List Node} {pos : Nat → Nat} {l : List Nat} (h : ∀ i ∈ l, ∃ nd, nodes[i - 1]? = some nd) :
    (renumbered nodes pos l).length = l.length := by
  induction l with
  | nil => rfl
  | cons i l ih =>
    obtain ⟨nd, hnd⟩ := h i (.head _)
    have hc : renumbered nodes pos (i :: l) = renumber pos nd :: renumbered nodes pos l := by simp [renumbered, hnd]
    rw [hc, List.length_cons, List.length_cons, ih fun i hi => h i (.tail _ hi)]

/-- The position of a node in the order of first meeting. -/
def PosOf (pos : Nat → Nat) (S : List Nat) : Prop := ∀ i T, (i :: T) <:+ S → pos i = T.length + 1

theorem walk_suffix {nodes S ids w S'} (h : NodeWalk nodes S ids w S') : S <:+ S' := ⟨_, (walk_seen h).symm⟩

/-- The events of a walk represent the renumbered nodes. -/
theorem walk_rep {nodes S ids w S'} (h : NodeWalk nodes S ids w S') {an pos : Nat → Nat} :
    (∀ i, .again i ∈ w → an i ≠ 0) → PosOf pos S' → (∀ i j, an i = an j → an i ≠ 0 → i = j) →
    Rep .nodes (binds an pos S) S.length (evs (walkEvs nodes an w)) (ids.map pos) (binds an pos S') (renumbered nodes pos (fulls w)) := by
  have unbound : ∀ {S : List Nat} {i : Nat}, (∀ i j, an i = an j → an i ≠ 0 → i = j) → i ∉ S → Unbound (binds an pos S) (idText (an i)) := by
    intro S i hinj hni x k hx hm
    unfold idText at hx
    split at hx
    · cases hx
    next hne =>
      cases hx
      unfold binds at hm
      obtain ⟨j, hj, he⟩ := List.mem_filterMap.mp hm
      unfold idText at he
      split at he
      · cases he
      next hne' =>
        simp only [Option.map_some, Option.some.injEq, Prod.mk.injEq] at he
        have := hinj j i (generateAnchor_inj he.1) hne'
        subst this
        exact hni (List.mem_reverse.mp hj)
  induction h with
  | nil => intro _ _ _; exact .nodesNil
  | @again S i is w S' hi hw ih =>
    intro hal hpos hinj
    have hn0 : an i ≠ 0 := hal i (.head _)
    have hev : evs (walkEvs nodes an (.again i :: w)) = [{ data := .alias (generateAnchor (an i)) }] ++ evs (walkEvs nodes an w) := by
      simp [walkEvs, walkEvents, stepEvent, idText, hn0, evs]
    rw [hev]
    refine .nodesCons (ns := []) (.alias rfl ?_) (ih (fun j hj => hal j (.tail _ hj)) hpos hinj)
    exact List.mem_filterMap.mpr ⟨i, List.mem_reverse.mpr hi, by simp [idText, hn0]⟩
  | @leaf S i is nd w S' h0 hni hnd hc hw ih =>
    intro hal hpos hinj
    have hp : pos i = S.length + 1 := hpos i S (walk_suffix hw)
    have ihh := ih (fun j hj => hal j (.tail _ hj)) hpos hinj
    rw [binds_cons, hp] at ihh
    rcases nd with ⟨t, d, m1, m2⟩
    cases d with
    | sequence => exact absurd trivial hc
    | mapping => exact absurd trivial hc
    | scalar v st =>
      have hev : evs (walkEvs nodes an (.leaf i :: w)) =
          [{ data := .scalar (idText (an i)) (some t) v (decide (t = strTag)) (decide (t = strTag)) st }] ++ evs (walkEvs nodes an w) := by
        simp [walkEvs, walkEvents, stepEvent, hnd, evs]
      have hns : renumbered nodes pos (fulls (.leaf i :: w)) =
          [{ tag := nodeTag strTag (some t), data := .scalar v st, start := {}, stop := {} }] ++ renumbered nodes pos (fulls w) := by
        simp [renumbered, fulls, hnd, renumber]
      rw [hev, hns, List.map_cons, hp]
      exact .nodesCons (.scalar rfl (unbound hinj hni)) ihh
  | @coll S i is nd k w S1 S' h0 hni hnd hc hw1 hw2 ih1 ih2 =>
    intro hal hpos hinj
    have hp : pos i = S.length + 1 := hpos i S ((walk_suffix hw1).trans (walk_suffix hw2))
    have hk := ih1 (fun j hj => hal j (.tail _ (List.mem_append_left _ hj))) (fun j T hT => hpos j T (hT.trans (walk_suffix hw2))) hinj
    have hr := ih2 (fun j hj => hal j (.tail _ (List.mem_append_right _ (.tail _ hj)))) hpos hinj
    rw [binds_cons, hp] at hk
    have hlen : S1.length = S.length + ((renumbered nodes pos (fulls k)).length + 1) := by
      rw [walk_seen hw1, renumbered_length (walk_full_node hw1)]
      simp; omega
    rw [hlen] at hr
    rcases nd with ⟨t, d, m1, m2⟩
    cases d with
    | scalar => exact absurd hc (by simp [isColl])
    | sequence items st =>
      have hev : evs (walkEvs nodes an (.enter i :: (k ++ .leave i :: w))) =
          ({ data := .sequenceStart (idText (an i)) (some t) (decide (t = seqTag)) st } :: evs (walkEvs nodes an k) ++ [{ data := .sequenceEnd }]) ++
            evs (walkEvs nodes an w) := by
        simp [walkEvs, walkEvents, stepEvent, hnd, evs]
      have hns : renumbered nodes pos (fulls (.enter i :: (k ++ .leave i :: w))) =
          ({ tag := nodeTag seqTag (some t), data := .sequence (items.map pos) st, start := {}, stop := {} } :: renumbered nodes pos (fulls k)) ++
            renumbered nodes pos (fulls w) := by
        simp [renumbered, fulls, fulls_append, hnd, renumber]
      rw [hev, hns, List.map_cons, hp]
      exact .nodesCons (.seq rfl rfl (unbound hinj hni) hk) hr
    | mapping ps st =>
      have hev : evs (walkEvs nodes an (.enter i :: (k ++ .leave i :: w))) =
          ({ data := .mappingStart (idText (an i)) (some t) (decide (t = mapTag)) st } :: evs (walkEvs nodes an k) ++ [{ data := .mappingEnd }]) ++
            evs (walkEvs nodes an w) := by
        simp [walkEvs, walkEvents, stepEvent, hnd, evs]
      have hns : renumbered nodes pos (fulls (.enter i :: (k ++ .leave i :: w))) =
          ({ tag := nodeTag mapTag (some t), data := .mapping (ps.map fun p => (pos p.1, pos p.2)) st, start := {}, stop := {} } ::
            renumbered nodes pos (fulls k)) ++ renumbered nodes pos (fulls w) := by
        simp [renumbered, fulls, fulls_append, hnd, renumber]
      have hch : List.map pos (Node.children ⟨t, .mapping ps st, m1, m2⟩) = (ps.map fun p => (pos p.1, pos p.2)).flatMap fun p => [p.1, p.2] := by
        simp only [Node.children]
        exact map_flat pos ps
      rw [hch] at hk
      rw [hev, hns, List.map_cons, hp]
      exact .nodesCons (.map rfl rfl (unbound hinj hni) (rep_to_pairs _ hk) rfl) hr

end LibYaml
