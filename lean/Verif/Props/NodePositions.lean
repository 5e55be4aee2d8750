import Verif.Proofs.NodePositions
import Verif.Props.Positions
import Verif.Props.LoadText
import Verif.Props.LoadParse

/-!
# C75: positions of nodes

`Spec/NodePositions.lean` says how the nodes of a document lie to each other.
-/

namespace LibYaml

open Spec

/-- What the documents returned have to satisfy: their nodes nest, all marks are positions in the text (or its end, moved to
a new line), and no document starts before the one before it has ended. -/
def DocsLaid (good : List Nat) (tail : List UInt8) (ds : List Doc) : Prop :=
  (∀ d ∈ ds, NodesNest d) ∧ (ds.Pairwise fun a b => a.stop.index ≤ b.start.index) ∧
    ∀ d ∈ ds, ∀ m, (m = d.start ∨ m = d.stop ∨ ∃ nd ∈ d.nodes, m = nd.start ∨ m = nd.stop) →
      IsPos good m ∨ (tail = [] ∧ m = endMark good)

theorem delivered_events (w : List Event) : delivered (w.map .event) = w := by
  induction w with
  | nil => rfl
  | cons e w ih => simp [delivered, ih]

/-- Documents from events that the parser has delivered. -/
theorem docs_laid (o : Oracle) (n : Int) (fuel : Nat) (enc : Option Enc) (bytes : List UInt8) (hsize : bytes.length < maxFileSize)
    (f : Nat) (hf : bytes.length + 3 < f) (good : List Nat) (tail : List UInt8)
    (hs : Split (chosen enc bytes).1 (chosen enc bytes).2 good tail) {se : Event} {ws : List (List Event)} {u : List Event} {ds : List Doc}
    {r : Parser (Scanner × RS)} (h : Evs (scannerSrc o f) n fuel (parserStart enc bytes) (se :: ws.flatten ++ u) r)
    (hr : List.Forall₂ RepDoc ws ds) : DocsLaid good tail ds := by
  obtain ⟨ts, _, _, h1, h2⟩ := C74_positions o n fuel enc bytes hsize f hf _ good tail hs h.parseN
  rw [delivered_events] at h1 h2
  have hw : InLine ws.flatten := inLine_right (inLine_left h1 : InLine ([se] ++ ws.flatten))
  obtain ⟨k1, k2⟩ := docs_nest hr hw
  refine ⟨k1, k2, fun d hd m hm => ?_⟩
  obtain ⟨w, hw, hin⟩ := docs_marks hr hd
  obtain ⟨⟨a, a1, a2⟩, ⟨b, b1, b2⟩, hn⟩ := repDoc_marks hw
  have hmem : ∀ e ∈ w, e ∈ se :: ws.flatten ++ u := fun e he => by
    rw [List.cons_append]
    exact List.mem_cons_of_mem _ (List.mem_append_left _ (hin e he))
  rcases hm with rfl | rfl | ⟨nd, hnd, hm⟩
  · exact h2 a (hmem a a1) _ (.inl a2)
  · exact h2 b (hmem b b1) _ (.inr b2)
  · obtain ⟨⟨x, x1, x2⟩, ⟨y, y1, y2⟩⟩ := hn nd hnd
    rcases hm with rfl | rfl
    · exact h2 x (hmem x x1) _ (.inl x2)
    · exact h2 y (hmem y y1) _ (.inr y2)

/-- **C75.** For every byte string and any number of calls of `yaml_parser_load`: the results are documents whose nodes nest,
one document after the other, all marks being positions in the decoded text; then the empty document, as often as asked
for, or a failure. -/
theorem C75_node_positions (room : Nat → Bool) (o : Oracle) (n : Int) (fuel m : Nat) (enc : Option Enc) (bytes : List UInt8)
    (hsize : bytes.length < maxFileSize) (f : Nat) (hf : bytes.length + 3 < f) (k : Nat) (good : List Nat) (tail : List UInt8)
    (hs : Split (chosen enc bytes).1 (chosen enc bytes).2 good tail) {os : List LOut} {r : Parser (Scanner × RS)}
    (h : loadBytes room o n f fuel m enc bytes k = .ok (os, r)) :
    ∃ ds rest, os = ds.map .doc ++ rest ∧ (∀ x ∈ rest, x = .doc Doc.empty ∨ x = .failed) ∧ (∀ d ∈ ds, d.nodes ≠ []) ∧
      DocsLaid good tail ds := by
  have hrep : ∀ {ws : List (List Event)} {ds : List Doc}, ws.length = ds.length → (∀ wd ∈ ws.zip ds, RepDoc wd.1 wd.2) →
      List.Forall₂ RepDoc ws ds := by
    intro ws ds h4 h5
    rw [List.forall₂_iff_zip]
    exact ⟨h4, fun {a b} hab => h5 (a, b) hab⟩
  have hne : ∀ {ws : List (List Event)} {ds : List Doc}, List.Forall₂ RepDoc ws ds → ∀ d ∈ ds, d.nodes ≠ [] := by
    intro ws ds h d hd
    obtain ⟨w, hw⟩ := reps_right h d hd
    exact (repDoc_wellFormed hw).1
  have hmain : ∀ (j : Nat) (os : List LOut) (r : Parser (Scanner × RS)), j ≠ 0 → .failed ∉ os →
      loadBytes room o n f fuel m enc bytes j = .ok (os, r) →
      ∃ ds rest, os = ds.map .doc ++ rest ∧ (∀ x ∈ rest, x = .doc Doc.empty) ∧ (∀ d ∈ ds, d.nodes ≠ []) ∧ DocsLaid good tail ds := by
    intro j os r hj hfail h
    obtain ⟨_, se, ws, ds, tl, _, rfl, h3, h4, h5, h6⟩ := C56_loading room o n fuel m enc bytes hsize hf j hj h
    have hr := hrep h4 h5
    rcases h6 with ⟨rfl, k1⟩ | ⟨i, ee, rfl, _, k1, _⟩ | rfl
    · exact ⟨ds, [], rfl, nofun, hne hr, docs_laid o n fuel enc bytes hsize f hf good tail hs (u := []) (by simpa using k1) hr⟩
    · refine ⟨ds, _, rfl, fun x hx => (List.mem_replicate.mp hx).2, hne hr, docs_laid o n fuel enc bytes hsize f hf good tail hs k1 hr⟩
    · exact absurd (by simp) hfail
  have hnil : DocsLaid good tail [] := ⟨nofun, .nil, nofun⟩
  cases k with
  | zero => cases h; exact ⟨[], [], rfl, nofun, nofun, hnil⟩
  | succ k =>
    by_cases hfail : LOut.failed ∈ os
    · obtain ⟨_, se, ws, ds, tl, _, rfl, h3, h4, h5, h6⟩ := C56_loading room o n fuel m enc bytes hsize hf (k + 1) (by omega) h
      have htl : tl = [.failed] := by
        rcases h6 with ⟨rfl, _⟩ | ⟨i, ee, rfl, _⟩ | rfl
        · simp at hfail
        · simp at hfail
        · rfl
      subst htl
      have hk : ds.length = k := by simpa using h3
      cases k with
      | zero =>
        have : ds = [] := List.length_eq_zero_iff.mp hk
        subst this
        exact ⟨[], [.failed], rfl, by simp, nofun, hnil⟩
      | succ k =>
        obtain ⟨r', h7⟩ := loadN_take (j := k + 1) (by omega) h
        rw [List.take_left' (by simpa using hk)] at h7
        obtain ⟨ds', rest, e1, e2, e3, e4⟩ := hmain (k + 1) _ r' (by omega) (by simp) h7
        refine ⟨ds', rest ++ [.failed], by rw [e1, List.append_assoc], ?_, e3, e4⟩
        intro x hx
        rcases List.mem_append.mp hx with hx | hx
        · exact .inl (e2 x hx)
        · exact .inr (by simpa using hx)
    · obtain ⟨ds, rest, e1, e2, e3, e4⟩ := hmain (k + 1) os r (by omega) hfail h
      exact ⟨ds, rest, e1, fun x hx => .inl (e2 x hx), e3, e4⟩

/-! ### Example -/

/-- Start and end of the documents and their nodes. -/
def nodeSpans (os : List LOut) : List ((Nat × Nat) × List (Nat × Nat)) :=
  (docsOf os).map fun d => ((d.start.index, d.stop.index), d.nodes.map fun nd => (nd.start.index, nd.stop.index))

/-- Two documents: `a: [&x b, *x]` and, after `---`, `c`. -/
def nestBytes : List UInt8 := [97, 58, 32, 91, 38, 120, 32, 98, 44, 42, 120, 93, 10, 45, 45, 45, 32, 99]

/-- The mapping ends before `---`, the sequence from bracket to bracket lies within it and the scalar with its anchor within
the sequence; the alias makes no node. -/
example : (loadBytes (fun _ => true) (fun _ => some 3) 1000 60 100 400 none nestBytes 3).toOption.map (fun r => nodeSpans r.1) =
    some [((0, 13), [(0, 13), (0, 1), (3, 12), (4, 8)]), ((13, 18), [(17, 18)]), ((0, 0), [])] := by
  decide +kernel

/-- Nodes that do not nest: the item begins before its sequence. -/
example : ¬ NodesNest { start := ⟨0, 0, 0⟩, stop := ⟨9, 0, 9⟩, nodes :=
    [⟨seqTag, .sequence [2] .flow, ⟨3, 0, 3⟩, ⟨9, 0, 9⟩⟩, ⟨strTag, .scalar [97] .plain, ⟨2, 0, 2⟩, ⟨5, 0, 5⟩⟩] } := by
  intro h
  have := (h.child 0 _ 1 _ rfl (by decide) (by decide) rfl).1
  revert this
  decide

end LibYaml
