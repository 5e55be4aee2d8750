import Verif.Proofs.LeafScan

/-!
# Flow collections between two tokens
-/
namespace LibYaml
open Spec

variable {C : Cx}

/-- What follows an item of a flow collection. -/
def Closes (t : Text) : Prop := ∃ c r, t = c :: r ∧ (c = 44 ∨ c = 93 ∨ c = 125)

theorem Closes.start {t : Text} (h : Closes t) : TokStart t := by
  obtain ⟨c, r, rfl, h⟩ := h
  exact .cons _ (by rcases h with rfl | rfl | rfl <;> decide)

theorem Closes.fol {t : Text} {pi : Int} (h : Closes t) : Fol true pi false 0 t := by
  obtain ⟨c, r, rfl, h⟩ := h
  exact .inl ⟨rfl, rfl, rfl, c, r, rfl, h⟩

/-- An item of a flow collection: a node or a pair. -/
structure ItemScan (ind : Int) (lb : Break) (h : Nat) (b : Text) (ts : List TokData) : Prop where
  start : TokStart b
  scan : ∀ {C : Cx} {X : View} {u t : Text} {a : KS} {as : List KS}, Bd C X u (b ++ t) → X.flow ≠ 0 → X.ind < ind → X.ks = a :: as →
    (∀ x ∈ X.ks, x.Vague) → X.al = true → Closes t → X.depth + h ≤ C.B →
    ∃ a' al, a'.Vague ∧ Bd C { X with ds := X.ds ++ ts, ks := a' :: as.map (KS.age (u ++ b)), al := al } (u ++ b) t

theorem touch_on {X : View} {u : Text} {a : KS} {as : List KS} (hk : X.ks = a :: as) (ha : X.al = true) : (X.touch u).ks = .calm (lineBreaks u) :: as := by
  unfold View.touch View.key
  rw [if_pos ha, hk]; rfl

theorem touch_off {X : View} {u : Text} (ha : X.al = false) : X.touch u = X := by
  unfold View.touch
  rw [ha]; rfl

theorem NodeScan.item {ind : Int} {lb : Break} {h : Nat} {b : Text} {ts : List TokData} (hs : NodeScan true ind lb h b ts) : ItemScan ind lb h b ts := by
  refine ⟨hs.start, fun {C X u t a as} hb hfl hi hk hv hal ht hB => ?_⟩
  obtain ⟨al, _, g⟩ := hs.scan (br := false) (k := 0) (by rw [gap_none, List.nil_append]; exact hb) (by simpa using hfl) hi (fun hx => by cases hx)
    (by rw [hk]; simp) hv ht.start ht.fol hB
  rw [gap_none, List.append_nil, touch_on hk hal, List.map_cons] at g
  exact ⟨_, al, KS.Vague.age (show KS.Vague (.calm _) from trivial), g⟩

theorem save_on {X : View} {u : Text} {a : KS} {as : List KS} (hk : X.ks = a :: as) (ha : X.al = true) :
    (X.save u).ks = .on X.ds.length u (X.flow == 0 && X.ind == (lastColumn u : Nat)) :: as := by
  unfold View.save View.key
  rw [if_pos ha, hk]; rfl

theorem noBreaks_prefix {w b : Text} (h : NoBreaks b) (hw : w <+: b) : NoBreaks w := fun c hc => h c (hw.subset hc)

theorem noBreaks_append {a b : Text} (h1 : NoBreaks a) (h2 : NoBreaks b) : NoBreaks (a ++ b) := by
  intro c hc
  rcases List.mem_append.mp hc with h | h
  · exact h1 c h
  · exact h2 c h

theorem noBreaks_gap {lb : Break} {k : Nat} : NoBreaks (gap lb false k) := noBreaks_spaces k

theorem gap_length {lb : Break} {k : Nat} : (gap lb false k).length = k := by
  unfold gap
  simp

/-- The key is still possible. -/
theorem fresh_key {u w b : Text} {n : Nat} {r : Bool} (hw : w <+: b) (hn : NoBreaks b) (hl : b.length ≤ 1024) : (KS.on n u r).fresh (u ++ w) := by
  refine ⟨(lineBreaks_same (noBreaks_prefix hn hw)).symm, ?_⟩
  have := hw.length_le
  rw [List.length_append]; omega

/-- A pair with a simple key. -/
theorem item_simple {ind : Int} {lb : Break} {h1 h2 j k : Nat} {br : Bool} {al : Bool → Bool} {kb vb : Text} {tsk tsv : List TokData}
    (hk : LeafScan true ind lb h1 al (Fol true) kb tsk) (hn : NoBreaks kb) (hl : kb.length + j ≤ 1024) (hg : br = true ∨ 0 < k)
    (hv : NodeScan true ind lb h2 vb tsv) :
    ItemScan ind lb (max h1 h2) (kb ++ (gap lb false j ++ 58 :: (gap lb br k ++ vb))) (.key :: tsk ++ .value :: tsv) := by
  refine ⟨hk.start.append _, fun {C X u t a as} hb hfl hi hks hva hal ht hB => ?_⟩
  obtain ⟨d, r, e, hd, _⟩ := gap_head (lb := lb) hg (vb ++ t)
  have hb' : Bd C X u (kb ++ (gap lb false j ++ 58 :: (gap lb br k ++ (vb ++ t)))) := by
    simpa only [List.append_assoc, List.cons_append] using hb
  have hvas : ∀ x ∈ as, x.Vague := fun x hx => hva x (by rw [hks]; exact List.mem_cons_of_mem _ hx)
  have g1 := hk.scan hb' (ks0 := (X.save u).ks) (by simpa using hfl) hi (fun hx => by cases hx)
    (fun _ => free_of (by rw [hks]; simp) hva) (KeysLe.refl _) (fun w hw x hx => by
      rw [save_on hks hal] at hx
      rcases List.mem_cons.mp hx with rfl | hx
      · exact fresh_key hw (noBreaks_append hn noBreaks_gap) (by rw [List.length_append, gap_length]; exact hl)
      · exact (hvas x hx).fresh) (.cons _ (by decide))
    (.inr (.inl ⟨d, r, by rw [e], hd, fun hx => by cases hx⟩)) (by omega)
  rw [e, save_on hks hal] at g1
  have g2 := g1.valueOn (flat_of_flow hfl) hd rfl (by simp) (List.prefix_append _ _) (by
    rw [start_flow_id (by exact hfl)]
    show X.depth ≤ _
    omega)
  have e3 : (View.insertKey X.ds.length u
      { X with ds := X.ds ++ tsk, ks := List.map (KS.age (u ++ (kb ++ gap lb false j))) (.on X.ds.length u (X.flow == 0 && X.ind == (lastColumn u : Nat)) :: as), al := al false }).push .value
      = { X with ds := X.ds ++ (.key :: tsk ++ [.value]), ks := .off :: as.map (KS.age (u ++ (kb ++ gap lb false j))), al := false } := by
    unfold View.insertKey View.push
    have hx : ¬ (X.flow = 0 ∧ X.ind < (lastColumn u : Nat)) := fun h => hfl h.1
    simp [hx]
  rw [e3, ← e] at g2
  have g3 := g2.gap (hv.start.append _) (by
    intro x hx
    rcases List.mem_cons.mp hx with rfl | hx
    · trivial
    · exact (vague_age hvas x hx).fresh)
  have hf0 : (X.flow == 0) = false := by simpa using hfl
  simp only [hf0, Bool.and_false, Bool.or_false] at g3
  obtain ⟨al', _, g4⟩ := hv.scan (br := false) (k := 0) (show Bd C _ _ (vb ++ (gap lb false 0 ++ t)) from g3) (by simpa using hfl) hi (fun hx => by cases hx)
    (by simp) (by
      intro x hx
      obtain ⟨y, hy, rfl⟩ := List.mem_map.mp hx
      refine KS.Vague.age ?_
      rcases List.mem_cons.mp hy with rfl | hy
      · trivial
      · exact vague_age hvas y hy) ht.start ht.fol (by show X.depth + _ ≤ _; omega)
  rw [gap_none, List.append_nil, touch_off (by rfl)] at g4
  refine ⟨.off, al', trivial, ?_⟩
  simp only [List.map_cons, KS.age, List.append_assoc, List.nil_append, List.cons_append] at g4 ⊢
  have e5 : u ++ (kb ++ (gap lb false j ++ 58 :: (gap lb br k ++ vb))) = u ++ (kb ++ (gap lb false j ++ 58 :: gap lb br k)) ++ vb := by simp
  rw [e5, map_age_age, ← e5, show u ++ (kb ++ (gap lb false j ++ 58 :: (gap lb br k ++ vb))) = u ++ (kb ++ gap lb false j) ++ 58 :: (gap lb br k ++ vb) by simp,
    map_age_age] at g4
  simp only [List.append_assoc] at g4 ⊢
  exact g4

/-- A pair with `?`. -/
theorem item_complex {ind : Int} {lb : Break} {h1 h2 k0 k1 k2 : Nat} {br0 br1 br2 : Bool} {kb vb : Text} {tsk tsv : List TokData}
    (hk : NodeScan true ind lb h1 kb tsk) (hg0 : br0 = true ∨ 0 < k0) (hg : br2 = true ∨ 0 < k2) (hv : NodeScan true ind lb h2 vb tsv) :
    ItemScan ind lb (max h1 h2) (63 :: (gap lb br0 k0 ++ (kb ++ (gap lb br1 k1 ++ 58 :: (gap lb br2 k2 ++ vb))))) (.key :: tsk ++ .value :: tsv) := by
  refine ⟨.cons _ (by decide), fun {C X u t a as} hb hfl hi hks hva hal ht hB => ?_⟩
  obtain ⟨d, r, e, hd, _⟩ := gap_head (lb := lb) hg (vb ++ t)
  obtain ⟨d0, r0, e0, hd0, _⟩ := gap_head (lb := lb) hg0 (kb ++ (gap lb br1 k1 ++ 58 :: (gap lb br2 k2 ++ (vb ++ t))))
  have hb' : Bd C X u (63 :: (gap lb br0 k0 ++ (kb ++ (gap lb br1 k1 ++ 58 :: (gap lb br2 k2 ++ (vb ++ t)))))) := by
    simpa only [List.append_assoc, List.cons_append] using hb
  rw [e0] at hb'
  have hvas : ∀ x ∈ as, x.Vague := fun x hx => hva x (by rw [hks]; exact List.mem_cons_of_mem _ hx)
  have hf0 : (X.flow == 0) = false := by simpa using hfl
  have g1 := hb'.key (flat_of_flow hfl) hd0 (fun hx => absurd hx hfl) (free_of (by rw [hks]; simp) hva) (by
    rw [start_flow_id hfl]; omega)
  rw [start_flow_id hfl, ← e0] at g1
  have e1 : (((X.key .off).allow (X.flow == 0)).push .key) = { X with ds := X.ds ++ [.key], ks := .off :: as, al := false } := by
    unfold View.push View.allow View.key
    simp [hks, hf0]
  rw [e1] at g1
  have g2 := g1.gap (hk.start.append _) (by
    intro x hx
    rcases List.mem_cons.mp hx with rfl | hx
    · trivial
    · exact (hvas x hx).fresh)
  simp only [hf0, Bool.and_false, Bool.or_false] at g2
  obtain ⟨al1, _, g3⟩ := hk.scan g2 (by simpa using hfl) hi (fun hx => by cases hx)
    (by simp) (by
      refine vague_age ?_
      intro x hx
      rcases List.mem_cons.mp hx with rfl | hx
      · trivial
      · exact hvas x hx) (.cons _ (by decide)) (.inr (.inl ⟨d, r, by rw [e], hd, fun hx => by cases hx⟩)) (by show X.depth + _ ≤ _; omega)
  rw [touch_off (by rfl), e] at g3
  have g4 := g3.valueOff (flat_of_flow (by exact hfl)) hd rfl (fun hx => absurd hx (by exact hfl)) (by
    rw [start_flow_id (by exact hfl)]
    show X.depth ≤ _
    omega)
  rw [start_flow_id (by exact hfl), ← e] at g4
  simp only [View.push, View.allow, hf0] at g4
  have g5 := g4.gap (hv.start.append _) (by
    intro x hx
    rw [List.map_cons, List.map_cons] at hx
    rcases List.mem_cons.mp hx with rfl | hx
    · trivial
    · exact (vague_age (vague_age hvas) x hx).fresh)
  simp only [hf0, Bool.and_false, Bool.or_false] at g5
  obtain ⟨al', _, g6⟩ := hv.scan (br := false) (k := 0) (show Bd C _ _ (vb ++ (gap lb false 0 ++ t)) from g5) (by simpa using hfl) hi (fun hx => by cases hx)
    (by simp) (by
      refine vague_age (vague_age (vague_age ?_))
      intro x hx
      rcases List.mem_cons.mp hx with rfl | hx
      · trivial
      · exact hvas x hx) ht.start ht.fol (by show X.depth + _ ≤ _; omega)
  rw [gap_none, List.append_nil, touch_off (by rfl)] at g6
  refine ⟨.off, al', trivial, ?_⟩
  rw [show u ++ (63 :: (gap lb br0 k0 ++ (kb ++ (gap lb br1 k1 ++ 58 :: (gap lb br2 k2 ++ vb))))) =
    u ++ [63] ++ gap lb br0 k0 ++ (kb ++ gap lb br1 k1) ++ [58] ++ gap lb br2 k2 ++ vb by simp]
  have e7 : ∀ (w x : Text) (l : List KS), ((l.map (KS.age w)).map (KS.age (w ++ [58] ++ x))) = l.map (KS.age (w ++ [58] ++ x)) := by
    intro w x l
    rw [List.append_assoc, map_age_age]
  rw [map_age_age, e7, map_age_age] at g6
  simpa [KS.age] using g6

/-! ### The items and the end of a flow collection -/

/-- The rest of a flow collection behind an item. -/
structure FlowNext (ind : Int) (_lb : Break) (h cl : Nat) (b : Text) (ts : List TokData) : Prop where
  head : ∃ c r, b = c :: r ∧ (c = 44 ∨ c = cl)
  scan : ∀ {C : Cx} {X : View} {u rest : Text} {a : KS} {as : List KS} {l : Nat}, Bd C X u (b ++ rest) → X.flow = l + 1 → X.ind < ind → X.ks = a :: as →
    (∀ x ∈ X.ks, x.Vague) → X.depth + h ≤ C.B →
    ∃ as', (∀ x ∈ as', x.Vague) ∧ (∀ w, as'.map (KS.age (u ++ (b ++ w))) = as.map (KS.age (u ++ (b ++ w)))) ∧
      Raw C { X with ds := X.ds ++ ts, ks := as', flow := l, al := false } (u ++ b) rest

/-- A flow collection behind the opening bracket. -/
def FlowFirst (ind : Int) (_lb : Break) (h : Nat) (b : Text) (ts : List TokData) : Prop :=
  ∀ {C : Cx} {X : View} {u rest : Text} {a : KS} {as : List KS} {l : Nat}, Raw C X u (b ++ rest) → X.flow = l + 1 → X.ind < ind → X.ks = a :: as →
    (∀ x ∈ X.ks, x.Vague) → X.al = true → X.depth + h ≤ C.B →
    ∃ as', (∀ x ∈ as', x.Vague) ∧ (∀ w, as'.map (KS.age (u ++ (b ++ w))) = as.map (KS.age (u ++ (b ++ w)))) ∧
      Raw C { X with ds := X.ds ++ ts, ks := as', flow := l, al := false } (u ++ b) rest

def IsEnd (cl : Nat) (d : TokData) : Prop := (cl = 93 ∧ d = .flowSequenceEnd) ∨ (cl = 125 ∧ d = .flowMappingEnd)

theorem IsEnd.start {cl : Nat} {d : TokData} (h : IsEnd cl d) (r : Text) : TokStart (cl :: r) :=
  .cons _ (by rcases h with ⟨rfl, _⟩ | ⟨rfl, _⟩ <;> decide)

theorem IsEnd.closes {cl : Nat} {d : TokData} (h : IsEnd cl d) : cl = 93 ∨ cl = 125 := by
  rcases h with ⟨rfl, _⟩ | ⟨rfl, _⟩ <;> simp

theorem next_end {ind : Int} {lb : Break} {cl : Nat} {d : TokData} (hc : IsEnd cl d) : FlowNext ind lb 0 cl [cl] [d] := by
  refine ⟨⟨cl, [], rfl, .inr rfl⟩, fun {C X u rest a as l} hb hfl hi hks hv hB => ⟨as, fun x hx => hv x (by rw [hks]; exact List.mem_cons_of_mem _ hx), fun _ => rfl, ?_⟩⟩
  have hb' : Bd C X u (cl :: rest) := hb
  have := hb'.flowEnd (flat_of_flow (by omega)) hc (free_of (by rw [hks]; simp) hv) hfl hB
  rw [hks] at this
  exact this

theorem next_comma_end {ind : Int} {lb : Break} {cl k : Nat} {br : Bool} {d : TokData} (hc : IsEnd cl d) :
    FlowNext ind lb 0 cl (44 :: (gap lb br k ++ [cl])) [.flowEntry, d] := by
  refine ⟨⟨44, _, rfl, .inl rfl⟩, fun {C X u rest a as l} hb hfl hi hks hv hB => ?_⟩
  have hvas : ∀ x ∈ as, x.Vague := fun x hx => hv x (by rw [hks]; exact List.mem_cons_of_mem _ hx)
  have hb' : Bd C X u (44 :: (gap lb br k ++ (cl :: rest))) := by simpa using hb
  have g1 := hb'.flowEntry (flat_of_flow (by omega)) (free_of (by rw [hks]; simp) hv) hB
  rw [hks] at g1
  have hvoff : ∀ x ∈ KS.off :: as, x.Vague := by
    intro x hx
    rcases List.mem_cons.mp hx with rfl | hx
    · trivial
    · exact hvas x hx
  have g2 := g1.gap (hc.start rest) (fun x hx => (hvoff x hx).fresh)
  dsimp only [List.tail_cons] at g2
  have g3 := g2.flowEnd (flat_of_flow (by show X.flow ≠ 0; omega)) hc (free_of (by simp) (vague_age hvoff)) hfl hB
  dsimp only [List.tail_cons, List.map_cons] at g3
  refine ⟨as.map (KS.age (u ++ [44] ++ gap lb br k)), vague_age hvas, fun w => ?_, ?_⟩
  · rw [show u ++ (44 :: (gap lb br k ++ [cl]) ++ w) = u ++ [44] ++ gap lb br k ++ ([cl] ++ w) by simp, map_age_age]
  · simpa using g3

theorem next_item {ind : Int} {lb : Break} {h1 h2 cl k : Nat} {br : Bool} {b b' : Text} {ts ts' : List TokData} (hcl : cl = 93 ∨ cl = 125)
    (hi : ItemScan ind lb h1 b ts) (hn : FlowNext ind lb h2 cl b' ts') :
    FlowNext ind lb (max h1 h2) cl (44 :: (gap lb br k ++ (b ++ b'))) (.flowEntry :: (ts ++ ts')) := by
  refine ⟨⟨44, _, rfl, .inl rfl⟩, fun {C X u rest a as l} hb hfl hind hks hv hB => ?_⟩
  have hvas : ∀ x ∈ as, x.Vague := fun x hx => hv x (by rw [hks]; exact List.mem_cons_of_mem _ hx)
  have hb' : Bd C X u (44 :: (gap lb br k ++ (b ++ (b' ++ rest)))) := by simpa using hb
  have g1 := hb'.flowEntry (flat_of_flow (by omega)) (free_of (by rw [hks]; simp) hv) (by omega)
  rw [hks] at g1
  have hvoff : ∀ x ∈ KS.off :: as, x.Vague := by
    intro x hx
    rcases List.mem_cons.mp hx with rfl | hx
    · trivial
    · exact hvas x hx
  have g2 := g1.gap (hi.start.append _) (fun x hx => (hvoff x hx).fresh)
  dsimp only at g2
  obtain ⟨a', al, g3, g4⟩ := hi.scan g2 (by show X.flow ≠ 0; omega) hind rfl (vague_age hvoff) (by simp) (by
      obtain ⟨c, r, e, hc⟩ := hn.head
      refine ⟨c, r ++ rest, by rw [e]; rfl, ?_⟩
      rcases hc with rfl | rfl
      · exact .inl rfl
      · exact .inr hcl) (by show X.depth + _ ≤ _; omega)
  dsimp only at g4
  obtain ⟨as', g5, g6, g7⟩ := hn.scan g4 hfl hind rfl (by
      intro x hx
      rcases List.mem_cons.mp hx with rfl | hx
      · exact g3
      · exact vague_age (vague_age hvas) x hx) (by show X.depth + _ ≤ _; omega)
  refine ⟨as', g5, fun w => ?_, ?_⟩
  · rw [show u ++ (44 :: (gap lb br k ++ (b ++ b')) ++ w) = u ++ [44] ++ gap lb br k ++ b ++ (b' ++ w) by simp, g6, map_age_age, List.append_assoc (u ++ [44] ++ gap lb br k),
      map_age_age]
    rfl
  · simpa using g7

theorem first_end {ind : Int} {lb : Break} {cl : Nat} {d : TokData} (hc : IsEnd cl d) : FlowFirst ind lb 0 [cl] [d] := by
  intro C X u rest a as l hb hfl hi hks hv hal hB
  have hvas : ∀ x ∈ as, x.Vague := fun x hx => hv x (by rw [hks]; exact List.mem_cons_of_mem _ hx)
  have g1 := (show Raw C X u (gap lb false 0 ++ cl :: rest) from hb).gap (hc.start rest) (fun x hx => (hv x hx).fresh)
  rw [gap_none, List.append_nil] at g1
  have g2 := g1.flowEnd (flat_of_flow (by show X.flow ≠ 0; omega)) hc (free_of (by rw [hks]; simp) (vague_age hv)) hfl hB
  rw [hks] at g2
  refine ⟨as.map (KS.age u), vague_age hvas, fun w => ?_, g2⟩
  rw [map_age_age]

theorem first_item {ind : Int} {lb : Break} {h1 h2 cl k : Nat} {br : Bool} {b b' : Text} {ts ts' : List TokData} (hcl : cl = 93 ∨ cl = 125)
    (hi : ItemScan ind lb h1 b ts) (hn : FlowNext ind lb h2 cl b' ts') :
    FlowFirst ind lb (max h1 h2) (gap lb br k ++ (b ++ b')) (ts ++ ts') := by
  intro C X u rest a as l hb hfl hind hks hv hal hB
  have hvas : ∀ x ∈ as, x.Vague := fun x hx => hv x (by rw [hks]; exact List.mem_cons_of_mem _ hx)
  have hb' : Raw C X u (gap lb br k ++ (b ++ (b' ++ rest))) := by simpa using hb
  have g2 := hb'.gap (hi.start.append _) (fun x hx => (hv x hx).fresh)
  obtain ⟨a', al, g3, g4⟩ := hi.scan (a := a.age (u ++ gap lb br k)) (as := as.map (KS.age (u ++ gap lb br k))) g2 (by show X.flow ≠ 0; omega) hind (by rw [hks]; rfl)
    (vague_age hv) (by simp [hal]) (by
      obtain ⟨c, r, e, hc⟩ := hn.head
      refine ⟨c, r ++ rest, by rw [e]; rfl, ?_⟩
      rcases hc with rfl | rfl
      · exact .inl rfl
      · exact .inr hcl) (by show X.depth + _ ≤ _; omega)
  dsimp only at g4
  obtain ⟨as', g5, g6, g7⟩ := hn.scan g4 hfl hind rfl (by
      intro x hx
      rcases List.mem_cons.mp hx with rfl | hx
      · exact g3
      · exact vague_age (vague_age hvas) x hx) (by show X.depth + _ ≤ _; omega)
  refine ⟨as', g5, fun w => ?_, ?_⟩
  · rw [show u ++ (gap lb br k ++ (b ++ b') ++ w) = u ++ gap lb br k ++ b ++ (b' ++ w) by simp, g6, map_age_age, List.append_assoc (u ++ gap lb br k), map_age_age]
  · simpa using g7

/-! ### The whole collection -/

def IsStart (c : Nat) (d : TokData) : Prop := (c = 91 ∧ d = .flowSequenceStart) ∨ (c = 123 ∧ d = .flowMappingStart)

theorem IsStart.start {c : Nat} {d : TokData} (h : IsStart c d) (r : Text) : TokStart (c :: r) :=
  .cons _ (by rcases h with ⟨rfl, _⟩ | ⟨rfl, _⟩ <;> decide)

theorem node_flow {flow : Bool} {ind : Int} {lb : Break} {h c : Nat} {b : Text} {d : TokData} {ts : List TokData} (hc : IsStart c d) (hs : FlowFirst ind lb h b ts) :
    NodeScan flow ind lb (h + 1) (c :: b) (d :: ts) := by
  refine ⟨hc.start _, fun {C X u br k t} hb hfl hi hcol hne hv ht hfo hB => ?_⟩
  have hb' : Bd C X u (c :: (b ++ (gap lb br k ++ t))) := hb
  have g1 := hb'.flowStart (flat_of hfl (fun hx => by have := hcol hx; omega)) hc (fun _ => free_of hne hv) (by omega)
  have g2 := g1.weaken (ks := .off :: (X.touch u).ks) (.cons (KS.le_refl _) (save_le (ne_of_flow hfl hcol)))
  obtain ⟨e1, e2, e3, e4, e5⟩ := X.save_frame u
  have e6 : ({ (X.save u).open d with ks := .off :: (X.touch u).ks } : View) =
      { X with ds := X.ds ++ [d], ks := .off :: (X.touch u).ks, flow := X.flow + 1, al := true } := by
    generalize X.save u = Y at *
    unfold View.open
    simp only [e1, e2, e3, e4]
  rw [e6] at g2
  have hvt : ∀ x ∈ (X.touch u).ks, x.Vague := touch_vague hv
  obtain ⟨as', g3, g4, g5⟩ := hs g2 rfl hi rfl (by
    intro x hx
    rcases List.mem_cons.mp hx with rfl | hx
    · trivial
    · exact hvt x hx) rfl (by
      unfold View.depth at hB ⊢
      show X.inds.length + (X.flow + 1) + h ≤ _
      omega)
  have g6 := g5.gap ht (fun x hx => (g3 x hx).fresh)
  refine ⟨br && X.flow == 0, fun h1 h2 => ?_, ?_⟩
  · rw [flow_beq hfl, h1, h2]; rfl
  · have e7 := g4 (gap lb br k)
    simp only [List.append_assoc, List.nil_append, List.cons_append] at g6 e7 ⊢
    rw [e7] at g6
    simpa using g6

/-- An empty collection, as it is written for a simple key. -/
theorem leaf_empty {flow : Bool} {ind : Int} {lb : Break} {c cl : Nat} {d d' : TokData} (hc : IsStart c d) (hcl : IsEnd cl d') :
    LeafScan flow ind lb 1 (fun br => br && !flow) (Fol flow) [c, cl] [d, d'] := by
  refine ⟨hc.start _, fun {C X u ks0 br k t} hb hfl hi hcol hf hk hfr ht hfo hB => ?_⟩
  have hb' : Bd C X u (c :: (cl :: (gap lb br k ++ t))) := hb
  have g1 := hb'.flowStart (flat_of hfl hcol) hc hf (by omega)
  have g2 := g1.weaken (ks := .off :: ks0) (.cons (KS.le_refl _) hk)
  obtain ⟨e1, e2, e3, e4, e5⟩ := X.save_frame u
  have e6 : ({ (X.save u).open d with ks := .off :: ks0 } : View) = { X with ds := X.ds ++ [d], ks := .off :: ks0, flow := X.flow + 1, al := true } := by
    generalize X.save u = Y at *
    unfold View.open
    simp only [e1, e2, e3, e4]
  rw [e6] at g2
  have g3 := (show Raw C _ _ (gap lb false 0 ++ cl :: (gap lb br k ++ t)) from g2).gap (hcl.start _) (by
    intro x hx
    rcases List.mem_cons.mp hx with rfl | hx
    · trivial
    · rw [gap_none, List.append_nil]
      exact hfr [c] ⟨cl :: gap lb br k, by simp⟩ x hx)
  rw [gap_none, List.append_nil] at g3
  have g4 := g3.flowEnd (l := X.flow) (flat_of_flow (by show X.flow + 1 ≠ 0; omega)) hcl ⟨.off, _, rfl, trivial⟩ rfl (by
    unfold View.depth at hB ⊢
    show X.inds.length + (X.flow + 1) ≤ _
    omega)
  have g5 := g4.gap ht (by
    intro x hx
    rw [List.map_cons, List.tail_cons] at hx
    obtain ⟨y, hy, rfl⟩ := List.mem_map.mp hx
    refine fresh_age ?_
    rw [List.append_assoc, List.append_assoc]
    exact hfr _ (List.prefix_refl _) y hy)
  rw [List.map_cons, List.tail_cons, List.append_assoc _ [cl] _, map_age_age, flow_beq hfl, Bool.false_or] at g5
  simpa using g5

end LibYaml
