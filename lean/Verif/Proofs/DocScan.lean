import Verif.Proofs.BlockNodes

/-!
# Between documents: directives, markers and the root node

`Home C ds al u t`: at the beginning of a line, no block collection is open once the next marker is seen, and the tokens so far are `ds`.
-/

namespace LibYaml

open Spec

variable {C : Cx}

/-- The view of the scanner between documents. -/
def View.home (ds : List TokData) (al : Bool) : View := { ds := ds, ind := -1, inds := [], flow := 0, ks := [.off], al := al }

/-- The scanner is at the beginning of a line between documents, where something follows that is not white space. -/
def Home (C : Cx) (ds : List TokData) (al : Bool) (u t : Text) : Prop :=
  ∃ X, Bd C X u t ∧ X.unroll (-1) = View.home ds al ∧ lastColumn u = 0

theorem Raw.home {ds : List TokData} {al : Bool} {u t : Text} (h : Raw C (View.home ds al) u t) (ht : TokStart t) (h0 : lastColumn u = 0) : Home C ds al u t := by
  have hb := Raw.gap (lb := .ln) (br := false) (k := 0) (v := View.home ds al) (t := t) (u := u) (by simpa [LibYaml.gap] using h) ht (by simp [View.home, KS.fresh])
  refine ⟨_, by simpa [LibYaml.gap] using hb, ?_, h0⟩
  rw [View.unroll_id (by simp [View.home])]
  simp [View.home, KS.age]

theorem Raw.line {ds : List TokData} {al : Bool} {u t : Text} {lb : Break} (h : Raw C (View.home ds al) u (brkText (some lb) ++ t)) (ht : TokStart t) :
    Home C ds true (u ++ brkText (some lb)) t := by
  have hb := Raw.gap (lb := lb) (br := true) (k := 0) (v := View.home ds al) (t := t) (u := u) (by simpa [LibYaml.gap] using h) ht (by simp [View.home, KS.fresh])
  refine ⟨_, by simpa [LibYaml.gap] using hb, ?_, ?_⟩
  · rw [View.unroll_id (by simp [View.home])]
    simp [View.home, KS.age]
  · have := lastColumn_gap (u := u) (lb := lb) (br := true) (k := 0)
    simpa [LibYaml.gap] using this

theorem nested_short {ind : Int} {inds : List Int} (h : NestedColumns (ind :: inds)) (h0 : ind ≤ 0) : inds.length ≤ 1 := by
  cases inds with
  | nil => simp
  | cons a r =>
    obtain ⟨h1, h2⟩ := h
    cases r with
    | nil => simp
    | cons b r =>
      obtain ⟨h3, h4⟩ := h2
      have : ∀ {x : Int} {xs : List Int}, NestedColumns (x :: xs) → -1 ≤ x := by
        intro x xs
        induction xs generalizing x with
        | nil => intro h; rw [show x = -1 from h]; omega
        | cons y ys ih => rintro ⟨h, h'⟩; have := ih h'; omega
      have := this h4
      omega

/-- What is needed for the tokens that stand between documents. -/
theorem Home.ready {ds : List TokData} {al : Bool} {u t : Text} (h : Home C ds al u t) (hB : 1 ≤ C.B) :
    ∃ X, Bd C X u t ∧ X.Flat u ∧ X.Free ∧ X.ks = [.off] ∧ X.flow = 0 ∧ X.depth ≤ C.B ∧ X.reset = View.home ds false ∧ lastColumn u = 0 := by
  obtain ⟨X, h1, h2, h3⟩ := h
  have hk : X.ks = [.off] := by have := congrArg View.ks h2; rwa [View.unroll_ks] at this
  have hf : X.flow = 0 := by have := congrArg View.flow h2; rwa [View.unroll_flowLevel] at this
  have hn := h1.settle.nested
  have hle : (X.unroll (lastColumn u : Nat)).ind ≤ (lastColumn u : Nat) := by
    unfold View.unroll
    rw [if_neg (by simp [hf])]
    exact (unrollV_nested (by omega) h1.nested).2
  refine ⟨X.unroll (lastColumn u), h1.settle, flat_of_le hle, ⟨.off, [], by rw [View.unroll_ks, hk], trivial⟩, by rw [View.unroll_ks, hk], by rw [View.unroll_flowLevel, hf], ?_, ?_, h3⟩
  · have := nested_short hn (by rw [h3] at hle ⊢; exact hle)
    have hf' : (X.unroll (lastColumn u : Nat)).flow = 0 := by rw [View.unroll_flowLevel, hf]
    unfold View.depth
    omega
  · unfold View.reset
    rw [View.unroll_twice (by omega), h2]
    rfl

theorem tokStart_doc {t : Text} (h : DocLine t) : TokStart t := by
  obtain ⟨d, r, _, rfl | rfl⟩ := h
  · exact ⟨45, _, rfl, by decide, by decide, by decide, by decide⟩
  · exact ⟨46, _, rfl, by decide, by decide, by decide, by decide⟩

/-- `---` -/
theorem Home.documentStart {ds : List TokData} {al : Bool} {u t : Text} {d : Nat} (h : Home C ds al u (45 :: 45 :: 45 :: d :: t)) (hd : isBlankz d = true) (hB : 1 ≤ C.B) :
    Raw C (View.home (ds ++ [.documentStart]) false) (u ++ [45, 45, 45]) (d :: t) := by
  obtain ⟨X, h1, h2, h3, _, _, h4, h5, h6⟩ := h.ready hB
  have := h1.documentStart h2 h6 hd h3 h4
  rwa [h5] at this

/-- `...` and the end of the line. -/
theorem Home.documentEnd {ds : List TokData} {al : Bool} {u t : Text} {lb : Break} (h : Home C ds al u (46 :: 46 :: 46 :: (brkText (some lb) ++ t))) (ht : TokStart t) (hB : 1 ≤ C.B) :
    Home C (ds ++ [.documentEnd]) true (u ++ 46 :: 46 :: 46 :: brkText (some lb)) t := by
  obtain ⟨X, h1, h2, h3, _, _, h4, h5, h6⟩ := h.ready hB
  obtain ⟨d, r, e, hd⟩ : ∃ d r, brkText (some lb) ++ t = d :: r ∧ isBlankz d = true := by cases lb <;> exact ⟨_, _, rfl, by decide⟩
  rw [e] at h1
  have := h1.documentEnd h2 h6 hd h3 h4
  rw [h5, ← e] at this
  have := Raw.line (al := false) (ds := ds ++ [.documentEnd]) this ht
  simpa using this

theorem TokStart.afterBreak {t : Text} (h : TokStart t) (lb : Break) : AfterBreak lb t := by
  obtain ⟨c, r, rfl, _, hb, _⟩ := h
  refine ⟨by simp, fun _ h => ?_⟩
  cases h
  exact absurd hb (by decide)

theorem lastColumn_brk (u : Text) (lb : Break) : lastColumn (u ++ brkText (some lb)) = 0 := by
  have := lastColumn_gap (u := u) (lb := lb) (br := true) (k := 0)
  simpa [gap] using this

/-- A directive and the end of its line. -/
theorem Home.directive {ds : List TokData} {al : Bool} {u w t : Text} {d : TokData} {lb : Break} (h : Home C ds al u (37 :: (w ++ (brkText (some lb) ++ t))))
    (hs : lw (scanDirective C.f) (fun tok _ cs => tok.data = d ∧ cs = t) (markOf u) (37 :: (w ++ (brkText (some lb) ++ t)))) (hd : d ≠ .streamEnd) (ht : TokStart t) (hB : 1 ≤ C.B) :
    Home C (ds ++ [d]) false (u ++ 37 :: (w ++ brkText (some lb))) t := by
  obtain ⟨X, h1, h2, h3, _, _, h4, h5, h6⟩ := h.ready hB
  rw [← List.append_assoc] at h1 hs
  have := h1.directive h2 h6 hs hd h3 h4
  rw [h5] at this
  refine Raw.home (ds := ds ++ [d]) this ht ?_
  rw [show u ++ 37 :: (w ++ brkText (some lb)) = (u ++ 37 :: w) ++ brkText (some lb) by simp]
  exact lastColumn_brk _ _

theorem Home.text {ds : List TokData} {al : Bool} {u t : Text} (h : Home C ds al u t) : C.T = u ++ t := by
  obtain ⟨X, h1, _⟩ := h
  exact h1.text

theorem Home.version {ds : List TokData} {al : Bool} {u t : Text} {v : Version} {lb : Break} (hv : GoodVersion v)
    (h : Home C ds al u ([37, 89, 65, 77, 76, 32, 49, 46, 48 + v.minor] ++ (brkText (some lb) ++ t))) (ht : TokStart t) (hB : 1 ≤ C.B) :
    Home C (ds ++ [.versionDirective v]) false (u ++ ([37, 89, 65, 77, 76, 32, 49, 46, 48 + v.minor] ++ brkText (some lb))) t := by
  refine Home.directive (w := [89, 65, 77, 76, 32, 49, 46, 48 + v.minor]) h ?_ (by simp) ht hB
  refine lw_scanDirective_version hv.2 ?_ (ht.afterBreak lb) fun st k => ⟨?_, rfl⟩
  · have h1 := h.text
    have h2 := C.fuel
    rw [h1] at h2
    simp only [List.length_append, List.length_cons] at h2
    omega
  · show TokData.versionDirective ⟨1, v.minor⟩ = _
    rw [← hv.1]

theorem Home.tag {ds : List TokData} {al : Bool} {u t : Text} {d : TagDir} {lb : Break} (hd : TagDirOk d) (h : Home C ds al u (tagDirText d ++ (brkText (some lb) ++ t)))
    (ht : TokStart t) (hB : 1 ≤ C.B) : Home C (ds ++ [.tagDirective d]) false (u ++ (tagDirText d ++ brkText (some lb))) t := by
  have h' : Home C ds al u (37 :: ([84, 65, 71, 32] ++ (d.handle ++ 32 :: tagText d.pfx) ++ (brkText (some lb) ++ t))) := h
  refine Home.directive (d := .tagDirective d) h' ?_ (by simp) ht hB
  refine lw_scanDirective_tag hd ?_ (ht.afterBreak lb) fun st k => ⟨rfl, rfl⟩
  have h1 := h.text
  have h2 := C.fuel
  rw [h1] at h2
  simp only [List.length_append] at h2
  omega

/-- The root of a document. -/
theorem Home.root {ds : List TokData} {al al' : Bool} {u t x : Text} {ts : List TokData} {lb : Break} {brx : Bool} {n : Nat} (hs : BlockScan (-1) lb al brx n x ts)
    (h : Raw C (View.home ds al') u (x ++ (gap lb brx 0 ++ t))) (ha : al = true → al' = true ∧ lastColumn u = 0) (ht : DocLine t ∨ ∃ r, t = 0 :: r) (hB : n ≤ C.B) :
    Home C (ds ++ ts) true (u ++ (x ++ gap lb brx 0)) t := by
  have htk : TokStart t := by
    rcases ht with h | ⟨r, rfl⟩
    · exact tokStart_doc h
    · exact ⟨0, _, rfl, by decide, by decide, by decide, by decide⟩
  obtain ⟨X, h1, h2⟩ := hs.scan h rfl rfl rfl (by omega) (fun e => ⟨(ha e).1, by rw [(ha e).2]; rfl⟩) htk (.inr ⟨rfl, ht⟩) (by simpa [View.home, View.depth] using hB)
  exact ⟨X, h1, h2, lastColumn_line hs.last⟩

end LibYaml
