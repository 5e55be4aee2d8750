import Verif.Spec.NodePositions
import Verif.Spec.Compose
import Verif.Proofs.PositionsRun
import Verif.Proofs.LoaderSpec
import Verif.Model.Loader
import Mathlib.Data.List.Forall2

/-!
# C75: positions of nodes

The positions of nodes are those of the events they come from, so that they nest as the events do.
-/

namespace LibYaml

open Spec

theorem inLine_left {v w : List Event} (h : InLine (v ++ w)) : InLine v :=
  ⟨fun e he => h.1 e (by simp [he]), (List.pairwise_append.mp h.2).1⟩

theorem inLine_right {v w : List Event} (h : InLine (v ++ w)) : InLine w :=
  ⟨fun e he => h.1 e (by simp [he]), (List.pairwise_append.mp h.2).2.1⟩

theorem inLine_cross {v w : List Event} (h : InLine (v ++ w)) : ∀ a ∈ v, ∀ b ∈ w, a.stop.index ≤ b.start.index :=
  (List.pairwise_append.mp h.2).2.2

/-- The marks of the nodes are those of events. -/
theorem rep_spots {s A n w ids A' ns} (h : Spec.Rep s A n w ids A' ns) :
    ∀ nd ∈ ns, (∃ e ∈ w, nd.start = e.start) ∧ ∃ e ∈ w, nd.stop = e.stop := by
  induction h with
  | «alias» => nofun
  | scalar =>
    intro nd hnd
    simp only [List.mem_singleton] at hnd
    subst hnd
    exact ⟨⟨_, by simp, rfl⟩, ⟨_, by simp, rfl⟩⟩
  | seq _ _ _ _ ih =>
    intro nd hnd
    rcases List.mem_cons.mp hnd with rfl | hnd
    · exact ⟨⟨_, by simp, rfl⟩, ⟨_, by simp, rfl⟩⟩
    · obtain ⟨⟨a, h1, h2⟩, ⟨b, h3, h4⟩⟩ := ih nd hnd
      exact ⟨⟨a, by simp [h1], h2⟩, ⟨b, by simp [h3], h4⟩⟩
  | map _ _ _ _ _ ih =>
    intro nd hnd
    rcases List.mem_cons.mp hnd with rfl | hnd
    · exact ⟨⟨_, by simp, rfl⟩, ⟨_, by simp, rfl⟩⟩
    · obtain ⟨⟨a, h1, h2⟩, ⟨b, h3, h4⟩⟩ := ih nd hnd
      exact ⟨⟨a, by simp [h1], h2⟩, ⟨b, by simp [h3], h4⟩⟩
  | nodesNil => nofun
  | nodesCons _ _ ih1 ih2 =>
    intro nd hnd
    rcases List.mem_append.mp hnd with hnd | hnd
    · obtain ⟨⟨a, h1, h2⟩, ⟨b, h3, h4⟩⟩ := ih1 nd hnd
      exact ⟨⟨a, by simp [h1], h2⟩, ⟨b, by simp [h3], h4⟩⟩
    · obtain ⟨⟨a, h1, h2⟩, ⟨b, h3, h4⟩⟩ := ih2 nd hnd
      exact ⟨⟨a, by simp [h1], h2⟩, ⟨b, by simp [h3], h4⟩⟩
  | pairsNil => nofun
  | pairsCons _ _ _ ih1 ih2 ih3 =>
    intro nd hnd
    rcases List.mem_append.mp hnd with hnd | hnd
    · obtain ⟨⟨a, h1, h2⟩, ⟨b, h3, h4⟩⟩ := ih1 nd hnd
      exact ⟨⟨a, by simp [h1], h2⟩, ⟨b, by simp [h3], h4⟩⟩
    rcases List.mem_append.mp hnd with hnd | hnd
    · obtain ⟨⟨a, h1, h2⟩, ⟨b, h3, h4⟩⟩ := ih2 nd hnd
      exact ⟨⟨a, by simp [h1], h2⟩, ⟨b, by simp [h3], h4⟩⟩
    · obtain ⟨⟨a, h1, h2⟩, ⟨b, h3, h4⟩⟩ := ih3 nd hnd
      exact ⟨⟨a, by simp [h1], h2⟩, ⟨b, by simp [h3], h4⟩⟩

/-- The nodes with numbers from `n + 1` on nest. -/
structure Nest (n : Nat) (ns : List Node) : Prop where
  node : ∀ nd ∈ ns, nd.start.index ≤ nd.stop.index
  order : ns.Pairwise fun a b => Within b a ∨ a.stop.index ≤ b.start.index
  child : ∀ i nd c nc, ns[i]? = some nd → n + c + 1 ∈ nd.children → i < c → ns[c]? = some nc → Within nc nd

theorem nest_nil {n : Nat} : Nest n [] := ⟨by simp, by simp, by simp⟩

/-- Nodes behind one another; those before do not refer to those behind. -/
theorem nest_append {n : Nat} {ns ms : List Node} (h1 : Nest n ns) (h2 : Nest (n + ns.length) ms)
    (hb : ∀ nd ∈ ns, ∀ i ∈ nd.children, i ≤ n + ns.length) (hc : ∀ a ∈ ns, ∀ b ∈ ms, a.stop.index ≤ b.start.index) :
    Nest n (ns ++ ms) := by
  refine ⟨fun nd hnd => ?_, List.pairwise_append.mpr ⟨h1.order, h2.order, fun a ha b hb => .inr (hc a ha b hb)⟩, ?_⟩
  · rcases List.mem_append.mp hnd with h | h
    · exact h1.node nd h
    · exact h2.node nd h
  · intro i nd c nc hi hm hic hcc
    by_cases hi' : i < ns.length
    · rw [List.getElem?_append_left hi'] at hi
      have := hb nd (List.mem_of_getElem? hi) _ hm
      rw [List.getElem?_append_left (by omega)] at hcc
      exact h1.child i nd c nc hi hm hic hcc
    · rw [List.getElem?_append_right (by omega)] at hi hcc
      refine h2.child (i - ns.length) nd (c - ns.length) nc hi ?_ (by omega) hcc
      rw [show n + ns.length + (c - ns.length) + 1 = n + c + 1 by omega]
      exact hm

/-- A collection around its nodes. -/
theorem nest_cons {n : Nat} {r : Node} {ns : List Node} (h : Nest (n + 1) ns) (hr : r.start.index ≤ r.stop.index)
    (hw : ∀ nd ∈ ns, Within nd r) : Nest n (r :: ns) := by
  refine ⟨?_, List.pairwise_cons.mpr ⟨fun b hb => .inl (hw b hb), h.order⟩, ?_⟩
  · intro nd hnd
    rcases List.mem_cons.mp hnd with rfl | hnd
    · exact hr
    · exact h.node nd hnd
  · intro i nd c nc hi hm hic hcc
    cases c with
    | zero => omega
    | succ c =>
      rw [List.getElem?_cons_succ] at hcc
      cases i with
      | zero =>
        simp only [List.getElem?_cons_zero, Option.some.injEq] at hi
        subst hi
        exact hw nc (List.mem_of_getElem? hcc)
      | succ i =>
        rw [List.getElem?_cons_succ] at hi
        exact h.child i nd c nc hi (by rw [show n + 1 + c + 1 = n + (c + 1) + 1 by omega]; exact hm) (by omega) hcc

/-- What lies between two events lies within the node they make. -/
theorem within_ends {e e' : Event} {w : List Event} (hw : InLine (e :: w ++ [e'])) {s A n ids A' ns} (h : Spec.Rep s A n w ids A' ns) :
    e.start.index ≤ e'.stop.index ∧ ∀ nd ∈ ns, e.start.index ≤ nd.start.index ∧ nd.stop.index ≤ e'.stop.index := by
  have hs := hw.1 e (by simp)
  have hs' := hw.1 e' (by simp)
  have hx := inLine_cross hw
  have h1 : InLine ([e] ++ w) := inLine_left hw
  have hy := inLine_cross h1
  refine ⟨?_, fun nd hnd => ?_⟩
  · have := hx e (by simp) e' (by simp)
    omega
  · obtain ⟨⟨a, h1, h2⟩, ⟨b, h3, h4⟩⟩ := rep_spots h nd hnd
    have := hy e (by simp) a h1
    have := hx b (by simp [h3]) e' (by simp)
    rw [h2, h4]
    omega

theorem rep_after {s A n v is A1 ns s' A' n' w js A2 ms} (h1 : Spec.Rep s A n v is A1 ns) (h2 : Spec.Rep s' A' n' w js A2 ms) (hw : InLine (v ++ w)) :
    ∀ a ∈ ns, ∀ b ∈ ms, a.stop.index ≤ b.start.index := by
  intro a ha b hb
  obtain ⟨_, ⟨x, hx, h3⟩⟩ := rep_spots h1 a ha
  obtain ⟨⟨y, hy, h4⟩, _⟩ := rep_spots h2 b hb
  rw [h3, h4]
  exact inLine_cross hw x hx y hy

theorem bind_bound {A : List (Text × Nat)} {a : Option Text} {n : Nat} (hA : ∀ p ∈ A, 0 < p.2 ∧ p.2 ≤ n) :
    ∀ p ∈ bindAnchor A a (n + 1), 0 < p.2 ∧ p.2 ≤ n + 1 := by
  intro p hp
  unfold bindAnchor at hp
  split at hp
  · have := hA p hp; omega
  · rcases List.mem_append.mp hp with hp | hp
    · have := hA p hp; omega
    · simp only [List.mem_singleton] at hp
      subst hp
      simp

/-- The nodes of events in line nest. -/
theorem rep_nest {s A n w ids A' ns} (h : Spec.Rep s A n w ids A' ns) (hA : ∀ p ∈ A, 0 < p.2 ∧ p.2 ≤ n) (hw : InLine w) : Nest n ns := by
  induction h with
  | «alias» => exact nest_nil
  | scalar => exact nest_cons nest_nil (hw.1 _ (by simp)) (by simp)
  | seq _ _ _ h ih =>
    obtain ⟨k1, k2⟩ := within_ends hw h
    exact nest_cons (ih (bind_bound hA) (inLine_right (inLine_left hw : InLine ([_] ++ _)))) k1 k2
  | map _ _ _ h _ ih =>
    obtain ⟨k1, k2⟩ := within_ends hw h
    exact nest_cons (ih (bind_bound hA) (inLine_right (inLine_left hw : InLine ([_] ++ _)))) k1 k2
  | nodesNil => exact nest_nil
  | nodesCons h1 h2 ih1 ih2 =>
    obtain ⟨_, b2, b3⟩ := rep_ids h1 hA
    exact nest_append (ih1 hA (inLine_left hw)) (ih2 b2 (inLine_right hw)) (fun nd hnd i hi => (b3 nd hnd i hi).2) (rep_after h1 h2 hw)
  | pairsNil => exact nest_nil
  | @pairsCons A n u ks A1 ns v vs A2 ms w js A3 os h1 h2 h3 ih1 ih2 ih3 =>
    obtain ⟨_, b2, b3⟩ := rep_ids h1 hA
    obtain ⟨_, c2, c3⟩ := rep_ids h2 b2
    have hvw := inLine_right hw
    refine nest_append (ih1 hA (inLine_left hw)) ?_ (fun nd hnd i hi => (b3 nd hnd i hi).2) ?_
    · exact nest_append (ih2 b2 (inLine_left hvw)) (ih3 c2 (inLine_right hvw)) (fun nd hnd i hi => (c3 nd hnd i hi).2) (rep_after h2 h3 hvw)
    · intro a ha b hb
      obtain ⟨_, ⟨x, hx, e1⟩⟩ := rep_spots h1 a ha
      have hy : ∃ y ∈ v ++ w, b.start = y.start := by
        rcases List.mem_append.mp hb with hb | hb
        · obtain ⟨⟨y, hy, e2⟩, _⟩ := rep_spots h2 b hb
          exact ⟨y, by simp [hy], e2⟩
        · obtain ⟨⟨y, hy, e2⟩, _⟩ := rep_spots h3 b hb
          exact ⟨y, by simp [hy], e2⟩
      obtain ⟨y, hy, e2⟩ := hy
      rw [e1, e2]
      exact inLine_cross hw x hx y hy

/-- The node of one word is within itself, and all others created are within it. -/
theorem rep_under {A n w ids A' ns} (h : Spec.Rep .node A n w ids A' ns) (hw : InLine w) : ∀ r ∈ ns.head?, ∀ nd ∈ ns, Within nd r := by
  cases h with
  | «alias» => nofun
  | scalar =>
    intro r hr nd hnd
    simp only [List.head?_cons, Option.mem_def, Option.some.injEq] at hr
    simp only [List.mem_singleton] at hnd
    subst hr hnd
    exact ⟨Nat.le_refl _, Nat.le_refl _⟩
  | seq _ _ _ h =>
    intro r hr nd hnd
    simp only [List.head?_cons, Option.mem_def, Option.some.injEq] at hr
    subst hr
    rcases List.mem_cons.mp hnd with rfl | hnd
    · exact ⟨Nat.le_refl _, Nat.le_refl _⟩
    · exact (within_ends hw h).2 nd hnd
  | map _ _ _ h =>
    intro r hr nd hnd
    simp only [List.head?_cons, Option.mem_def, Option.some.injEq] at hr
    subst hr
    rcases List.mem_cons.mp hnd with rfl | hnd
    · exact ⟨Nat.le_refl _, Nat.le_refl _⟩
    · exact (within_ends hw h).2 nd hnd

/-- A document whose events are in line. -/
theorem repDoc_nest {w : List Event} {d : Doc} (h : RepDoc w d) (hw : InLine w) : NodesNest d := by
  obtain ⟨es, body, ee, A, rfl, _, h1, _, h2, hr⟩ := h
  obtain ⟨k1, k2⟩ := within_ends hw hr
  have hb : InLine body := inLine_right (inLine_left hw : InLine ([es] ++ body))
  have hn := rep_nest hr (by simp) hb
  refine ⟨by rw [h1, h2]; exact k1, fun nd hnd => ?_, rep_under hr hb, hn.order, ?_⟩
  · have := k2 nd hnd
    rw [h1, h2]
    exact ⟨this.1, hn.node nd hnd, this.2⟩
  · intro i nd c nc hi hm hic hc
    exact hn.child i nd c nc hi (by rw [Nat.zero_add]; exact hm) hic hc

/-- The marks of a document and its nodes are those of its events. -/
theorem repDoc_marks {w : List Event} {d : Doc} (h : RepDoc w d) :
    (∃ e ∈ w, d.start = e.start) ∧ (∃ e ∈ w, d.stop = e.stop) ∧
      ∀ nd ∈ d.nodes, (∃ e ∈ w, nd.start = e.start) ∧ ∃ e ∈ w, nd.stop = e.stop := by
  obtain ⟨es, body, ee, A, rfl, _, h1, _, h2, hr⟩ := h
  refine ⟨⟨es, by simp, h1⟩, ⟨ee, by simp, h2⟩, fun nd hnd => ?_⟩
  obtain ⟨⟨a, k1, k2⟩, ⟨b, k3, k4⟩⟩ := rep_spots hr nd hnd
  exact ⟨⟨a, by simp [k1], k2⟩, ⟨b, by simp [k3], k4⟩⟩

/-! ### Sessions -/

/-- Fewer calls give the first of the results. -/
theorem loadN_take {σ : Type} {room : Nat → Bool} {S : TokSrc σ} {n : Int} {fuel m : Nat} {j k : Nat} (hj : j ≤ k) {p q : Parser σ} {os : List LOut}
    (h : loadN room S n fuel m k p = .ok (os, q)) : ∃ r, loadN room S n fuel m j p = .ok (os.take j, r) := by
  induction j generalizing k p os with
  | zero => exact ⟨p, by simp [loadN]⟩
  | succ j ih =>
    obtain ⟨k, rfl⟩ : ∃ k', k = k' + 1 := ⟨k - 1, by omega⟩
    unfold loadN at h
    split at h
    · cases h
    · rename_i o p1 h1
      split at h
      · cases h
      · rename_i os' p2 h2
        cases h
        obtain ⟨r, h3⟩ := ih (by omega) h2
        exact ⟨r, by simp [loadN, h1, h3]⟩

/-- What holds of events in line holds of the documents made from them, one after the other. -/
theorem docs_nest {ws : List (List Event)} {ds : List Doc} (h : List.Forall₂ RepDoc ws ds) (hw : InLine ws.flatten) :
    (∀ d ∈ ds, NodesNest d) ∧ ds.Pairwise fun a b => a.stop.index ≤ b.start.index := by
  induction h with
  | nil => simp
  | @cons w d ws ds h1 h2 ih =>
    rw [List.flatten_cons] at hw
    obtain ⟨i1, i2⟩ := ih (inLine_right hw)
    refine ⟨fun x hx => ?_, List.pairwise_cons.mpr ⟨fun b hb => ?_, i2⟩⟩
    · rcases List.mem_cons.mp hx with rfl | hx
      · exact repDoc_nest h1 (inLine_left hw)
      · exact i1 x hx
    · obtain ⟨_, ⟨e, he, h3⟩, _⟩ := repDoc_marks h1
      have : ∃ e' ∈ ws.flatten, b.start = e'.start := by
        clear ih i1 i2 hw
        induction h2 with
        | nil => cases hb
        | @cons v c vs cs g1 g2 ih =>
          rcases List.mem_cons.mp hb with rfl | hb
          · obtain ⟨⟨e', he', h4⟩, _⟩ := repDoc_marks g1
            exact ⟨e', by simp [he'], h4⟩
          · obtain ⟨e', he', h4⟩ := ih hb
            exact ⟨e', by rw [List.flatten_cons]; exact List.mem_append_right _ he', h4⟩
      obtain ⟨e', he', h4⟩ := this
      rw [h3, h4]
      exact inLine_cross hw e he e' he'

theorem docs_marks {ws : List (List Event)} {ds : List Doc} (h : List.Forall₂ RepDoc ws ds) {d : Doc} (hd : d ∈ ds) :
    ∃ w, RepDoc w d ∧ ∀ e ∈ w, e ∈ ws.flatten := by
  induction h with
  | nil => cases hd
  | cons h1 _ ih =>
    rcases List.mem_cons.mp hd with rfl | hd
    · exact ⟨_, h1, fun e he => by simp [he]⟩
    · obtain ⟨w, k1, k2⟩ := ih hd
      exact ⟨w, k1, fun e he => by rw [List.flatten_cons]; exact List.mem_append_right _ (k2 e he)⟩

end LibYaml
