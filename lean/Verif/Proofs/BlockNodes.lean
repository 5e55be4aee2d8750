import Verif.Proofs.FlowScan

/-!
# Block collections between two tokens

What the scanner makes of block collections, whatever stands before and behind them.
-/
namespace LibYaml
open Spec

/-- The text ends with a line break. -/
def EndsLine (x : Text) : Prop := ∃ w c, x = w ++ [c] ∧ isBreakChar c = true

theorem EndsLine.append {x : Text} (h : EndsLine x) (y : Text) : EndsLine (y ++ x) := by
  obtain ⟨w, c, rfl, hc⟩ := h
  exact ⟨y ++ w, c, by rw [List.append_assoc], hc⟩

theorem EndsLine.cons {x : Text} (h : EndsLine x) (y : Nat) : EndsLine (y :: x) := h.append [y]

theorem lastColumn_line {u x : Text} {lb : Break} {br : Bool} {k : Nat} (h : br = false → EndsLine x) : lastColumn (u ++ (x ++ gap lb br k)) = k := by
  rw [← List.append_assoc, lastColumn_gap]
  cases br with
  | true => simp
  | false =>
    obtain ⟨w, c, rfl, hc⟩ := h rfl
    rw [← List.append_assoc, lastColumn_break (w := []) hc (by intro c hc; cases hc)]
    simp

/-- A node in a block collection at the column `pi`: the scanner reads the tokens `ts` from the text `x`, which includes the white space
in front of the node. `al`: the node may begin with a block collection on the same line. `brx`: a line break follows. -/
structure BlockScan (pi : Int) (lb : Break) (al brx : Bool) (h : Nat) (x : Text) (ts : List TokData) : Prop where
  last : brx = false → EndsLine x
  scan : ∀ {C : Cx} {v : View} {u : Text} {k : Nat} {t : Text}, Raw C v u (x ++ (gap lb brx k ++ t)) → v.flow = 0 → v.ind = pi → v.ks = [.off] →
    pi < (lastColumn u : Nat) → (al = true → v.al = true ∧ (lastColumn u : Int) = pi + 1) → TokStart t → Dedent pi k t → v.depth + h ≤ C.B →
    ∃ X, Bd C X (u ++ (x ++ gap lb brx k)) t ∧ X.unroll pi = { v with ds := v.ds ++ ts, ks := [.off], al := true }

/-- The entries of a block collection at the column `j`. -/
structure ListScan (d : TokData) (j : Nat) (lb : Break) (brx : Bool) (h : Nat) (b : Text) (ts : List TokData) : Prop where
  start : TokStart b
  last : brx = false → EndsLine b
  scan : ∀ {C : Cx} {X : View} {u : Text} {a : KS} {k : Nat} {t : Text}, Bd C X u (b ++ (gap lb brx k ++ t)) → X.flow = 0 → X.ind ≤ j →
    lastColumn u = j → X.ks = [a] → a.Vague → X.al = true → TokStart t → Dedent j k t → (X.start u d).depth + h ≤ C.B →
    ∃ X', Bd C X' (u ++ (b ++ gap lb brx k)) t ∧
      X'.unroll j = { X.start u d with ds := (X.start u d).ds ++ ts, ks := [.off], al := true }

theorem BlockScan.weaken {pi : Int} {lb : Break} {al brx : Bool} {h : Nat} {x : Text} {ts : List TokData} (hs : BlockScan pi lb false brx h x ts) :
    BlockScan pi lb al brx h x ts :=
  ⟨hs.last, fun hr hfl hi hk hc _ ht hd hB => hs.scan hr hfl hi hk hc (fun hx => by cases hx) ht hd hB⟩

theorem BlockScan.mono {pi : Int} {lb : Break} {al brx : Bool} {h h' : Nat} {x : Text} {ts : List TokData} (hs : BlockScan pi lb al brx h x ts) (hh : h ≤ h') :
    BlockScan pi lb al brx h' x ts :=
  ⟨hs.last, fun hr hfl hi hk hc ha ht hd hB => hs.scan hr hfl hi hk hc ha ht hd (by omega)⟩

theorem ListScan.mono {d : TokData} {j : Nat} {lb : Break} {brx : Bool} {h h' : Nat} {x : Text} {ts : List TokData} (hs : ListScan d j lb brx h x ts) (hh : h ≤ h') :
    ListScan d j lb brx h' x ts :=
  ⟨hs.start, hs.last, fun hr hfl hi hk hc ha hal ht hd hB => hs.scan hr hfl hi hk hc ha hal ht hd (by omega)⟩

/-- A scalar without text. -/
theorem block_missing {pi : Int} {lb : Break} {al : Bool} : BlockScan pi lb al true 0 [] [] := by
  refine ⟨(fun h => by cases h), fun {C v u k t} hr hfl hi hk hc _ ht hd hB => ?_⟩
  have g := Raw.gap (show Raw C v u (gap lb true k ++ t) from hr) ht (by rw [hk]; intro a ha; rw [List.mem_singleton.mp ha]; trivial)
  refine ⟨_, g, ?_⟩
  rw [View.unroll_id (by show v.ind ≤ pi; omega)]
  simp [hk, hfl, KS.age]

/-- A node without block collections. -/
theorem LeafBlock.scans {pi : Int} {lb : Break} {br0 brx al : Bool} {k0 h : Nat} {fol : Bool → Nat → Text → Prop} {b : Text} {ts : List TokData}
    (hs : LeafBlock pi lb h fol b ts) (hfol : ∀ k t, Dedent pi k t → fol brx k t) (hlast : brx = false → EndsLine b) (h0 : br0 = true → pi < (k0 : Int)) :
    BlockScan pi lb al brx h (gap lb br0 k0 ++ b) ts := by
  refine ⟨fun h => (hlast h).append _, fun {C v u k t} hr hfl hi hk hc _ ht hd hB => ?_⟩
  rw [List.append_assoc] at hr
  have g := hr.gap (hs.start.append _) (by rw [hk]; intro a ha; rw [List.mem_singleton.mp ha]; trivial)
  have hcol : pi < (lastColumn (u ++ gap lb br0 k0) : Nat) := by
    rw [lastColumn_gap]
    cases br0 with
    | true => have := h0 rfl; simp; omega
    | false => simp; omega
  have g2 := hs.scan g hfl hi hcol (a := .off) (by simp [hk, KS.age]) trivial ht (hfol k t hd) hB
  refine ⟨_, by simpa using g2, ?_⟩
  exact View.unroll_id (by show v.ind ≤ pi; omega)

/-- What begins behind an indicator: nothing, or white space. -/
def Sep (brx : Bool) (x : Text) : Prop := (x = [] ∧ brx = true) ∨ ∃ c r, x = c :: r ∧ isBlankz c = true

theorem Sep.head {lb : Break} {brx : Bool} {x : Text} {k : Nat} (h : Sep brx x) (t : Text) : ∃ c r, x ++ (gap lb brx k ++ t) = c :: r ∧ isBlankz c = true := by
  rcases h with ⟨rfl, rfl⟩ | ⟨c, r, rfl, hc⟩
  · obtain ⟨c, r, e, hc, _⟩ := gap_head (lb := lb) (br := true) (k := k) (.inl rfl) t
    exact ⟨c, r, e, hc⟩
  · exact ⟨c, _, rfl, hc⟩

theorem start_ind {X : View} {u : Text} {d : TokData} {j : Nat} (hfl : X.flow = 0) (hi : X.ind ≤ j) (hu : lastColumn u = j) : (X.start u d).ind = j := by
  unfold View.start
  rw [hu]
  split
  · rfl
  · rename_i h
    have : ¬ X.ind < (j : Int) := fun hx => h ⟨hfl, hx⟩
    omega

theorem start_id {X : View} {u : Text} {d : TokData} {j : Nat} (hi : X.ind = j) (hu : lastColumn u = j) : X.start u d = X := by
  unfold View.start
  rw [if_neg]
  rintro ⟨_, h⟩
  omega

theorem depth_start {X : View} {u : Text} {d : TokData} : X.depth ≤ (X.start u d).depth := by
  unfold View.start View.depth
  split <;> simp <;> omega

/-- An entry of a block sequence. -/
theorem list_entry {j : Nat} {lb : Break} {brx : Bool} {h : Nat} {x : Text} {ts : List TokData} (hs : BlockScan j lb true brx h x ts) (hx : Sep brx x) :
    ListScan .blockSequenceStart j lb brx h (45 :: x) (.blockEntry :: ts) := by
  refine ⟨.cons _ (by decide), fun h => (hs.last h).cons _, fun {C X u a k t} hb hfl hi hu hk ha hal ht hd hB => ?_⟩
  obtain ⟨c, r, e, hc⟩ := hx.head (lb := lb) (k := k) t
  have hdep := depth_start (u := u) (d := .blockSequenceStart) (X := X)
  have hind := start_ind (d := .blockSequenceStart) hfl hi hu
  obtain ⟨f1, f2, f3⟩ := start_frame (u := u) (d := .blockSequenceStart) (X := X)
  have hb' : Bd C X u (45 :: (x ++ (gap lb brx k ++ t))) := hb
  rw [e] at hb'
  have g := hb'.blockEntry (flat_of_le (by omega)) hc hal ⟨a, [], hk, ha.free⟩ (by omega)
  rw [← e] at g
  generalize X.start u .blockSequenceStart = Y at *
  obtain ⟨X', g1, g2⟩ := hs.scan g (by show Y.flow = 0; rw [f1, hfl]) (by show Y.ind = j; exact hind) (by show KS.off :: Y.ks.tail = _; rw [f3, hk]; rfl)
    (by rw [lastColumn_noBreaks (w := [45]) (by intro c hc; rw [List.mem_singleton.mp hc]; decide), hu]; simp; omega)
    (fun _ => ⟨by show Y.al = true; rw [f2, hal], by rw [lastColumn_noBreaks (w := [45]) (by intro c hc; rw [List.mem_singleton.mp hc]; decide), hu]; simp⟩)
    ht hd (by show Y.depth + h ≤ _; omega)
  refine ⟨X', by simpa using g1, ?_⟩
  rw [g2]
  simp [View.push, View.key]

/-- A pair with a simple key. -/
theorem list_simple {j kk : Nat} {ind : Int} {lb : Break} {brx : Bool} {h1 h2 : Nat} {al : Bool → Bool} {kb x : Text} {tsk tsv : List TokData}
    (hk : LeafScan false ind lb h1 al (Fol false) kb tsk) (hn : NoBreaks kb) (hl : kb.length + kk ≤ 1024) (hj : (j : Int) < ind)
    (hs : BlockScan j lb false brx h2 x tsv) (hx : Sep brx x) :
    ListScan .blockMappingStart j lb brx (max h1 h2) (kb ++ (gap lb false kk ++ 58 :: x)) (.key :: (tsk ++ .value :: tsv)) := by
  refine ⟨hk.start.append _, fun h => (((hs.last h).cons _).append _).append _, fun {C X u a k t} hb hfl hi hu hks ha hal ht hd hB => ?_⟩
  obtain ⟨c, r, e, hc⟩ := hx.head (lb := lb) (k := k) t
  have hdep := depth_start (u := u) (d := .blockMappingStart) (X := X)
  have hind := start_ind (d := .blockMappingStart) hfl hi hu
  obtain ⟨f1, f2, f3⟩ := start_frame (u := u) (d := .blockMappingStart) (X := X)
  have hb' : Bd C X u (kb ++ (gap lb false kk ++ 58 :: (x ++ (gap lb brx k ++ t)))) := by simpa using hb
  rw [e] at hb'
  have hsave : (X.save u).ks = [.on X.ds.length u (X.flow == 0 && X.ind == (lastColumn u : Nat))] := by
    unfold View.save
    rw [hal, if_pos rfl]
    show _ :: X.ks.tail = _
    rw [hks]; rfl
  have g1 := hk.scan hb' (ks0 := (X.save u).ks) (by rw [hfl]; rfl) (by omega) (fun _ => by omega)
    (fun _ => ⟨a, [], hks, ha.free⟩) (KeysLe.refl _) (fun w hw y hy => by
      rw [hsave] at hy
      rw [List.mem_singleton.mp hy]
      exact fresh_key hw (noBreaks_append hn noBreaks_gap) (by rw [List.length_append, gap_length]; exact hl)) (.cons _ (by decide))
    (.inr (.inl ⟨c, r, rfl, hc, fun _ => rfl⟩)) (by omega)
  rw [hsave, List.map_cons, List.map_nil, show KS.age (u ++ (kb ++ gap lb false kk)) (.on X.ds.length u (X.flow == 0 && X.ind == (lastColumn u : Nat))) =
    .on X.ds.length u (X.flow == 0 && X.ind == (lastColumn u : Nat)) from rfl] at g1
  have hcolv : lastColumn (u ++ (kb ++ gap lb false kk) ++ [58]) = j + kb.length + kk + 1 := by
    rw [lastColumn_noBreaks (w := [58]) (by intro c hc; rw [List.mem_singleton.mp hc]; decide), ← List.append_assoc, lastColumn_gap, lastColumn_noBreaks hn, hu]
    simp
  have g2 := g1.valueOn (flat_of_le (by
      show X.ind ≤ _
      rw [← List.append_assoc, lastColumn_gap, lastColumn_noBreaks hn, hu]
      simp; omega)) hc rfl (by simp) (List.prefix_append _ _) (by
      show View.depth (View.start u .blockMappingStart { X with ds := X.ds ++ tsk, ks := _, al := al false }) ≤ _
      refine Nat.le_trans (Nat.le_of_eq ?_) (Nat.le_trans (Nat.le_add_right _ _) hB)
      unfold View.start View.depth
      split <;> rfl)
  have e3 : (View.insertKey X.ds.length u
      { X with ds := X.ds ++ tsk, ks := [.on X.ds.length u (X.flow == 0 && X.ind == (lastColumn u : Nat))], al := al false }).push .value
      = { X.start u .blockMappingStart with ds := (X.start u .blockMappingStart).ds ++ (.key :: (tsk ++ [.value])), ks := [.off], al := false } := by
    unfold View.insertKey View.push View.start
    dsimp only
    split <;> simp_all
  rw [e3, ← e] at g2
  generalize X.start u .blockMappingStart = Y at *
  obtain ⟨X', g3, g4⟩ := hs.scan g2 (by show Y.flow = 0; rw [f1, hfl]) (by show Y.ind = j; exact hind) rfl
    (by rw [hcolv]; omega) (fun hx => by cases hx) ht hd (by show Y.depth + h2 ≤ _; omega)
  refine ⟨X', by simpa using g3, ?_⟩
  rw [g4]
  simp

/-- A pair with `?`. -/
theorem list_complex {j : Nat} {lb : Break} {br1 brx : Bool} {h1 h2 : Nat} {x1 x2 : Text} {tsk tsv : List TokData}
    (hk : BlockScan j lb true br1 h1 x1 tsk) (hx1 : Sep br1 x1) (hs : BlockScan j lb true brx h2 x2 tsv) (hx2 : Sep brx x2) :
    ListScan .blockMappingStart j lb brx (max h1 h2) (63 :: (x1 ++ (gap lb br1 j ++ 58 :: x2))) (.key :: (tsk ++ .value :: tsv)) := by
  refine ⟨.cons _ (by decide), fun h => ((((hs.last h).cons _).append _).append _).cons _, fun {C X u a k t} hb hfl hi hu hks ha hal ht hd hB => ?_⟩
  obtain ⟨c1, r1, e1, hc1⟩ := hx1.head (lb := lb) (k := j) (58 :: (x2 ++ (gap lb brx k ++ t)))
  obtain ⟨c2, r2, e2, hc2⟩ := hx2.head (lb := lb) (k := k) t
  have hdep := depth_start (u := u) (d := .blockMappingStart) (X := X)
  have hind := start_ind (d := .blockMappingStart) hfl hi hu
  obtain ⟨f1, f2, f3⟩ := start_frame (u := u) (d := .blockMappingStart) (X := X)
  have hb' : Bd C X u (63 :: (x1 ++ (gap lb br1 j ++ 58 :: (x2 ++ (gap lb brx k ++ t))))) := by simpa using hb
  rw [e1] at hb'
  have g := hb'.key (flat_of_le (by omega)) hc1 (fun _ => hal) ⟨a, [], hks, ha.free⟩ (by omega)
  rw [← e1, hfl] at g
  generalize X.start u .blockMappingStart = Y at *
  have hc63 : lastColumn (u ++ [63]) = j + 1 := by
    rw [lastColumn_noBreaks (w := [63]) (by intro c hc; rw [List.mem_singleton.mp hc]; decide), hu]; simp
  obtain ⟨X1, g1, g2⟩ := hk.scan g (by show Y.flow = 0; rw [f1, hfl]) (by show Y.ind = j; exact hind) (by show KS.off :: Y.ks.tail = _; rw [f3, hks]; rfl)
    (by rw [hc63]; omega) (fun _ => ⟨rfl, by rw [hc63]; omega⟩) (.cons _ (by decide)) (.inl (by omega)) (by show Y.depth + h1 ≤ _; omega)
  have hu1 : lastColumn (u ++ [63] ++ (x1 ++ gap lb br1 j)) = j := lastColumn_line hk.last
  have g3 := g1.settle
  rw [hu1, g2, e2] at g3
  have g4 := g3.valueOff (flat_of_le (by show Y.ind ≤ _; rw [hu1]; omega)) hc2 rfl (fun _ => rfl) (by
    rw [start_id (by show Y.ind = j; exact hind) hu1]
    show Y.depth ≤ _
    omega)
  rw [start_id (by show Y.ind = j; exact hind) hu1, ← e2] at g4
  have hc58 : lastColumn (u ++ [63] ++ (x1 ++ gap lb br1 j) ++ [58]) = j + 1 := by
    rw [lastColumn_noBreaks (w := [58]) (by intro c hc; rw [List.mem_singleton.mp hc]; decide), hu1]; simp
  obtain ⟨X2, g5, g6⟩ := hs.scan g4 (by show Y.flow = 0; rw [f1, hfl]) (by show Y.ind = j; exact hind) rfl
    (by rw [hc58]; omega) (fun _ => ⟨by show (Y.flow == 0) = true; rw [f1, hfl]; rfl, by rw [hc58]; omega⟩) ht hd (by show Y.depth + h2 ≤ _; omega)
  refine ⟨X2, by simpa using g5, ?_⟩
  rw [g6]
  simp [View.push, View.key, View.allow]

/-- More entries. -/
theorem ListScan.append {d : TokData} {j : Nat} {lb : Break} {br1 brx : Bool} {h1 h2 : Nat} {b1 b2 : Text} {ts1 ts2 : List TokData}
    (hs1 : ListScan d j lb br1 h1 b1 ts1) (hs2 : ListScan d j lb brx h2 b2 ts2) :
    ListScan d j lb brx (max h1 h2) (b1 ++ (gap lb br1 j ++ b2)) (ts1 ++ ts2) := by
  refine ⟨hs1.start.append _, fun h => ((hs2.last h).append _).append _, fun {C X u a k t} hb hfl hi hu hks ha hal ht hd hB => ?_⟩
  have hdep := depth_start (u := u) (d := d) (X := X)
  have hind := start_ind (d := d) hfl hi hu
  obtain ⟨f1, f2, f3⟩ := start_frame (u := u) (d := d) (X := X)
  obtain ⟨X1, g1, g2⟩ := hs1.scan (show Bd C X u (b1 ++ (gap lb br1 j ++ (b2 ++ (gap lb brx k ++ t)))) by simpa using hb) hfl hi hu hks ha hal
    (hs2.start.append _) (.inl (by omega)) (by omega)
  have hu1 : lastColumn (u ++ (b1 ++ gap lb br1 j)) = j := lastColumn_line hs1.last
  have g3 := g1.settle
  rw [hu1, g2] at g3
  generalize X.start u d = Y at *
  obtain ⟨X2, g4, g5⟩ := hs2.scan g3 (by show Y.flow = 0; rw [f1, hfl]) (by show Y.ind ≤ j; omega) hu1 rfl trivial rfl ht hd (by
    rw [start_id (by show Y.ind = j; exact hind) hu1]
    show Y.depth + h2 ≤ _
    omega)
  refine ⟨X2, by simpa using g4, ?_⟩
  rw [g5, start_id (by show Y.ind = j; exact hind) hu1]
  simp

theorem unroll_start {v : View} {pi : Int} {j : Nat} {d : TokData} {ts : List TokData} {ks : List KS} {al : Bool} {u : Text} (hfl : v.flow = 0) (hi : v.ind = pi) (hj : pi < (j : Int))
    (hu : lastColumn u = j) :
    View.unroll pi { v.start u d with ds := (v.start u d).ds ++ ts, ks := ks, al := al } = { v with ds := v.ds ++ (d :: (ts ++ [.blockEnd])), ks := ks, al := al } := by
  have e : v.start u d = { v with ds := v.ds ++ [d], ind := (j : Nat), inds := v.ind :: v.inds } := by
    unfold View.start
    rw [if_pos ⟨hfl, by rw [hu]; omega⟩, hu]
  rw [e]
  unfold View.unroll
  rw [if_neg (by show ¬ v.flow ≠ 0; omega)]
  have : unrollV pi (j : Nat) (v.ind :: v.inds) (v.ds ++ [d] ++ ts) = (v.ind, v.inds, v.ds ++ [d] ++ ts ++ [.blockEnd]) := by
    show (if (j : Int) > pi then unrollV pi v.ind v.inds (v.ds ++ [d] ++ ts ++ [.blockEnd]) else _) = _
    rw [if_pos (by omega), unrollV_id (by omega)]
  dsimp only
  rw [this]
  simp

/-- A block collection at the column `j`, in one at the column `pi`. -/
structure CollScan (pi : Int) (j : Nat) (lb : Break) (brx : Bool) (h : Nat) (b : Text) (ts : List TokData) : Prop where
  start : TokStart b
  last : brx = false → EndsLine b
  scan : ∀ {C : Cx} {X : View} {u : Text} {k : Nat} {t : Text}, Bd C X u (b ++ (gap lb brx k ++ t)) → X.flow = 0 → X.ind = pi →
    lastColumn u = j → X.ks = [.off] → X.al = true → TokStart t → Dedent pi k t → X.depth + h ≤ C.B →
    ∃ X', Bd C X' (u ++ (b ++ gap lb brx k)) t ∧ X'.unroll pi = { X with ds := X.ds ++ ts, ks := [.off], al := true }

theorem ListScan.coll {d : TokData} {pi : Int} {j : Nat} {lb : Break} {brx : Bool} {h : Nat} {b : Text} {ts : List TokData}
    (hs : ListScan d j lb brx h b ts) (hj : pi < (j : Int)) : CollScan pi j lb brx (h + 1) b (d :: (ts ++ [.blockEnd])) := by
  refine ⟨hs.start, hs.last, fun {C X u k t} hb hfl hi hu hk hal ht hd hB => ?_⟩
  have hd' : Dedent j k t := by
    rcases hd with hd | hd
    · exact .inl (by omega)
    · exact .inr hd
  obtain ⟨X', g1, g2⟩ := hs.scan hb hfl (by omega) hu (a := .off) hk trivial hal ht hd' (by have := start_depth (u := u) (d := d) (X := X); omega)
  refine ⟨X', g1, ?_⟩
  rw [← View.unroll_twice (c := pi) (d := (j : Int)) (by omega), g2, unroll_start hfl hi hj hu]

/-- A block sequence in a mapping at the same column. -/
theorem ListScan.indentless {d : TokData} {j : Nat} {lb : Break} {brx : Bool} {h : Nat} {b : Text} {ts : List TokData}
    (hs : ListScan d j lb brx h b ts) : CollScan j j lb brx h b ts := by
  refine ⟨hs.start, hs.last, fun {C X u k t} hb hfl hi hu hk hal ht hd hB => ?_⟩
  obtain ⟨X', g1, g2⟩ := hs.scan hb hfl (by omega) hu (a := .off) hk trivial hal ht hd (by rw [start_id hi hu]; exact hB)
  refine ⟨X', g1, ?_⟩
  rw [g2, start_id (by exact hi) hu]

/-- A block collection, on the same line or on the next. -/
theorem CollScan.scans {pi : Int} {j k0 : Nat} {lb : Break} {al br0 brx : Bool} {h : Nat} {b : Text} {ts : List TokData}
    (hs : CollScan pi j lb brx h b ts) (h1 : br0 = true → k0 = j) (h2 : br0 = false → al = true ∧ (j : Int) = pi + 1 + k0) :
    BlockScan pi lb al brx h (gap lb br0 k0 ++ b) ts := by
  refine ⟨fun h => (hs.last h).append _, fun {C v u k t} hr hfl hi hk hc ha ht hd hB => ?_⟩
  rw [List.append_assoc] at hr
  have g := hr.gap (hs.start.append _) (by rw [hk]; intro a ha; rw [List.mem_singleton.mp ha]; trivial)
  have hu : lastColumn (u ++ gap lb br0 k0) = j := by
    rw [lastColumn_gap]
    cases br0 with
    | true => simp [h1 rfl]
    | false =>
      obtain ⟨ha1, ha2⟩ := h2 rfl
      have := (ha ha1).2
      simp; omega
  have hal : (v.al || (br0 && v.flow == 0)) = true := by
    cases br0 with
    | true => simp [hfl]
    | false => simp [(ha (h2 rfl).1).1]
  obtain ⟨X', g1, g2⟩ := hs.scan g hfl hi hu (by simp [hk, KS.age]) hal ht hd hB
  exact ⟨X', by simpa using g1, g2⟩

/-- Properties in front of a block collection. -/
theorem LeafScan.scans {pi ind : Int} {j k0 : Nat} {lb : Break} {al br0 brx : Bool} {h : Nat} {b1 b2 : Text} {ts1 ts2 : List TokData}
    (hp : LeafScan false ind lb 0 (fun br => br && !false) PropFol b1 ts1) (hpi : pi < ind) (h0 : br0 = true → pi < (k0 : Int))
    (hs : CollScan pi j lb brx h b2 ts2) :
    BlockScan pi lb al brx h (gap lb br0 k0 ++ (b1 ++ (gap lb true j ++ b2))) (ts1 ++ ts2) := by
  refine ⟨fun h => (((hs.last h).append _).append _).append _, fun {C v u k t} hr hfl hi hk hc ha ht hd hB => ?_⟩
  have hr' : Raw C v u (gap lb br0 k0 ++ (b1 ++ (gap lb true j ++ (b2 ++ (gap lb brx k ++ t))))) := by simpa using hr
  have g := hr'.gap (hp.start.append _) (by rw [hk]; intro a ha; rw [List.mem_singleton.mp ha]; trivial)
  rw [hk, List.map_cons, List.map_nil, show KS.age (u ++ gap lb br0 k0) .off = .off from rfl] at g
  have hcol : pi < (lastColumn (u ++ gap lb br0 k0) : Nat) := by
    rw [lastColumn_gap]
    cases br0 with
    | true => have := h0 rfl; simp; omega
    | false => simp; omega
  generalize hX : ({ v with ks := [.off], al := v.al || (br0 && v.flow == 0) } : View) = X at g
  have x1 : X.flow = 0 := by rw [← hX]; exact hfl
  have x2 : X.ind = pi := by rw [← hX]; exact hi
  have x3 : X.ks = [.off] := by rw [← hX]
  have x4 : X.depth = v.depth := by rw [← hX]; rfl
  obtain ⟨a', e, ha'⟩ := touch_one (u := u ++ gap lb br0 k0) x3 trivial
  have hv : ∀ x ∈ (X.touch (u ++ gap lb br0 k0)).ks, x.Vague := by
    rw [e]
    intro x hx
    rw [List.mem_singleton.mp hx]
    exact ha'.vague
  have g1 := hp.scan g (by rw [x1]; rfl) (by omega) (fun _ => by omega) (fun _ => ⟨_, [], x3, trivial⟩) (save_le fun _ => by omega)
    (fun w _ x hx => (hv x hx).fresh) (hs.start.append _) (.inl rfl) (by omega)
  rw [e, List.map_cons, List.map_nil, ha'.gone (lineBreaks_gap hp.start)] at g1
  have hu : lastColumn (u ++ gap lb br0 k0 ++ (b1 ++ gap lb true j)) = j := lastColumn_line fun h => by cases h
  obtain ⟨X', g2, g3⟩ := hs.scan g1 x1 x2 hu rfl rfl ht hd (by show X.depth + h ≤ _; omega)
  refine ⟨X', by simpa using g2, ?_⟩
  rw [g3, ← hX]
  simp

end LibYaml
