import Verif.Proofs.EmitterHeap

/-!
# The emitter on the heap: stacks and the queue
-/

namespace LibYaml

open Spec

variable {ω α α' β β' : Type}

/-! ### What the pointers into strings depend on -/

/-- Nothing but the pointers into strings and their texts matters. -/
class Loose (I : HEm ω → Prop) : Prop where
  keep : ∀ p p' : HEm ω, p'.val.anchor = p.val.anchor → p'.val.tagHandle = p.val.tagHandle → p'.val.tagSuffix = p.val.tagSuffix →
    p'.anchor = p.anchor → p'.handle = p.handle → p'.suffix = p.suffix → p'.value = p.value → I p → I p'

instance : Loose (fun _ : HEm ω => True) := ⟨fun _ _ _ _ _ _ _ _ _ h => h⟩

/-- A text, if there is one, is in a live block or in a literal. -/
def LiveRef (B : Blocks) (t : Option Text) (r : TextRef) : Prop := t = none ∨ r = .lit ∨ ∃ a o, r = .heap a ∧ (a, Obj.bytes o) ∈ B

/-- The texts of the current event are in the blocks `B`. -/
structure Pointed (B : Blocks) (scalar : Prop) (p : HEm ω) : Prop where
  anchor : LiveRef B p.val.anchor p.anchor
  handle : LiveRef B p.val.tagHandle p.handle
  suffix : LiveRef B p.val.tagSuffix p.suffix
  value : scalar → ∃ a o, p.value = .heap a ∧ (a, Obj.bytes o) ∈ B

instance (B : Blocks) (sc : Prop) : Loose (Pointed (ω := ω) B sc) := ⟨fun p p' h1 h2 h3 h4 h5 h6 h7 h => by
  refine ⟨?_, ?_, ?_, ?_⟩
  · rw [h1, h4]; exact h.anchor
  · rw [h2, h5]; exact h.handle
  · rw [h3, h6]; exact h.suffix
  · rw [h7]; exact h.value⟩

/-- The texts are not changed. -/
def Steady (m : EM α) : Prop := ∀ s, (m s).st.anchor = s.anchor ∧ (m s).st.tagHandle = s.tagHandle ∧ (m s).st.tagSuffix = s.tagSuffix

theorem Quiet.steady {m : EM α} (h : Quiet m) : Steady m := by
  intro s
  obtain ⟨_, _, k⟩ := h s
  unfold Kin at k
  rw [k]
  exact ⟨rfl, rfl, rfl⟩

theorem steady_pure (a : α) : Steady (pure a : EM α) := fun _ => ⟨rfl, rfl, rfl⟩

theorem steady_bind {m : EM α} {k : α → EM β} (hm : Steady m) (hk : ∀ a, Steady (k a)) : Steady (m >>= k) := by
  intro s
  obtain ⟨h1, h2, h3⟩ := hm s
  rw [em_bind]
  cases (m s).val with
  | error e => exact ⟨h1, h2, h3⟩
  | ok a =>
    obtain ⟨k1, k2, k3⟩ := hk a (m s).st
    exact ⟨k1.trans h1, k2.trans h2, k3.trans h3⟩

theorem steady_get : Steady getE := fun _ => ⟨rfl, rfl, rfl⟩

theorem steady_ite {c : Prop} [Decidable c] {m n : EM α} (hm : Steady m) (hn : Steady n) : Steady (if c then m else n) := by
  split
  · exact hm
  · exact hn

theorem steady_when {b : Bool} {m : EM Unit} (h : Steady m) : Steady (whenE b m) := by
  cases b
  · exact steady_pure ()
  · exact h

section
variable {W : OutH ω} {A : Prop} {base : Nat → Option Obj} {q : List QEv} {T : Blocks} {I : HEm ω → Prop}

/-- A function of the value emitter that does not change the texts. -/
theorem erel_calm [Loose I] {m : EM Unit} (hm : Frames m) (hk : Steady m) :
    ERel W A base (EHas q T I) (eRun W m) m (fun _ _ => EHas q T I) :=
  erel_post (erel_run (I' := fun _ => I) hm fun p _ _ hI _ =>
    Loose.keep p _ (hk p.val).1 (hk p.val).2.1 (hk p.val).2.2 rfl rfl rfl rfl hI) fun _ _ _ _ _ h => h.2

theorem erel_calmB [Loose I] {m : EM Unit} {k' : Unit → HE ω β'} {k : Unit → EM β} {Q : β' → β → HEm ω → Emitter → Blocks → Prop} (hm : Frames m)
    (hk : Steady m) (h : ERel W A base (EHas q T I) (k' ()) (k ()) Q) : ERel W A base (EHas q T I) (eRun W m >>= k') (m >>= k) Q :=
  erel_bind (erel_calm hm hk) fun _ _ => h

theorem stkAt_top [Cell α] {vs : List α} {s : HStk} {b : Blocks} (h : StkAt vs s b) : s.top = vs.length := by
  obtain ⟨a, n, rfl, _, _⟩ := h
  rfl

theorem erel_push [Loose I] {x : EState} : ERel W A base (EHas q T I) (ePushState x) (pushStateE x) (fun _ _ => EHas q T I) := by
  intro p s b fr h hp e hu
  obtain ⟨⟨x1, x2, x3, x4, x5, x6, k1, k2, k3, k4, k5, k6, k7, k8, k9, k10, hb⟩, hI⟩ := hp
  unfold ePushState
  rw [hw_bind]
  refine hw_stk_push (bs' := (qBlocks q ++ (T ++ (x2 ++ (x3 ++ (x4 ++ (x5 ++ x6)))))) ++ fr) k5 e (by blocks_by hb) (fun h' e' hA => ?_)
    (fun h' s' x' j1 e' => ?_)
  · refine ⟨s, b, ⟨q, T, x1, x2, x3, x4, x5, x6, k1, k2, k3, k4, k5, k6, k7, k8, k9, k10, hb⟩, e', ⟨[], _, rfl, rfl⟩, fun a => .inl ?_⟩
    rw [← stkAt_top k5]
    exact hA a
  · exact ⟨(), qBlocks q ++ (T ++ (x' ++ (x2 ++ (x3 ++ (x4 ++ (x5 ++ x6)))))), rfl, rfl,
      ⟨⟨x', x2, x3, x4, x5, x6, congrArg (fun t : Emitter => { t with states := x :: s.states }) k1, k2, k3, k4, j1, k6, k7, k8, k9, k10, List.Perm.refl _⟩,
        Loose.keep p _ rfl rfl rfl rfl rfl rfl rfl hI⟩, e'.perm (by blocks)⟩

theorem erel_increase [Loose I] {f i : Bool} : ERel W A base (EHas q T I) (eIncreaseIndent f i) (increaseIndent f i) (fun _ _ => EHas q T I) := by
  intro p s b fr h hp e hu
  obtain ⟨⟨x1, x2, x3, x4, x5, x6, k1, k2, k3, k4, k5, k6, k7, k8, k9, k10, hb⟩, hI⟩ := hp
  have hin : p.val.indent = s.indent := by rw [k1]; rfl
  have hde : p.val.deeper f i = s.deeper f i := by rw [k1]; rfl
  unfold eIncreaseIndent
  rw [hw_bind]
  refine hw_stk_push (bs' := (qBlocks q ++ (T ++ (x1 ++ (x2 ++ (x4 ++ (x5 ++ x6)))))) ++ fr) k7 e (by blocks_by hb) (fun h' e' hA => ?_)
    (fun h' s' x' j1 e' => ?_)
  · refine ⟨s, b, ⟨q, T, x1, x2, x3, x4, x5, x6, k1, k2, k3, k4, k5, k6, k7, k8, k9, k10, hb⟩, e', ⟨[], _, rfl, rfl⟩, fun a => .inr (.inl ?_)⟩
    rw [← stkAt_top k7]
    exact hA a
  · rw [hin] at j1
    exact ⟨(), qBlocks q ++ (T ++ (x1 ++ (x2 ++ (x' ++ (x4 ++ (x5 ++ x6)))))), rfl, rfl,
      ⟨⟨x1, x2, x', x4, x5, x6, by
          rw [hde]
          exact congrArg (fun t : Emitter => { t with indents := s.indent :: s.indents, indent := s.deeper f i }) k1,
        k2, k3, k4, k5, k6, j1, k8, k9, k10, List.Perm.refl _⟩,
        Loose.keep p _ rfl rfl rfl rfl rfl rfl rfl hI⟩, e'.perm (by blocks)⟩

theorem erel_pop [Loose I] : ERel W A base (EHas q T I) ePopState popStateE (fun _ _ => EHas q T I) := by
  intro p s b fr h hp e hu
  obtain ⟨⟨x1, x2, x3, x4, x5, x6, k1, k2, k3, k4, k5, k6, k7, k8, k9, k10, hb⟩, hI⟩ := hp
  unfold popStateE at hu ⊢
  cases hs : s.states with
  | nil => rw [hs] at hu; exact absurd rfl hu
  | cons x xs =>
    rw [hs] at k5
    unfold ePopState
    rw [hw_bind]
    refine hw_stk_pop (bs' := (qBlocks q ++ (T ++ (x2 ++ (x3 ++ (x4 ++ (x5 ++ x6)))))) ++ fr) k5 e (by blocks_by hb) (fun h' s' x' j1 e' => ?_)
    exact ⟨(), qBlocks q ++ (T ++ (x' ++ (x2 ++ (x3 ++ (x4 ++ (x5 ++ x6)))))), rfl, rfl,
      ⟨⟨x', x2, x3, x4, x5, x6, congrArg (fun t : Emitter => { t with state := x, states := xs }) k1, k2, k3, k4, j1, k6, k7, k8, k9, k10, List.Perm.refl _⟩,
        Loose.keep p _ rfl rfl rfl rfl rfl rfl rfl hI⟩, e'.perm (by blocks)⟩

theorem erel_popIndent [Loose I] : ERel W A base (EHas q T I) ePopIndent popIndent (fun _ _ => EHas q T I) := by
  intro p s b fr h hp e hu
  obtain ⟨⟨x1, x2, x3, x4, x5, x6, k1, k2, k3, k4, k5, k6, k7, k8, k9, k10, hb⟩, hI⟩ := hp
  unfold popIndent at hu ⊢
  cases hs : s.indents with
  | nil => rw [hs] at hu; exact absurd rfl hu
  | cons x xs =>
    rw [hs] at k7
    unfold ePopIndent
    rw [hw_bind]
    refine hw_stk_pop (bs' := (qBlocks q ++ (T ++ (x1 ++ (x2 ++ (x4 ++ (x5 ++ x6)))))) ++ fr) k7 e (by blocks_by hb) (fun h' s' x' j1 e' => ?_)
    exact ⟨(), qBlocks q ++ (T ++ (x1 ++ (x2 ++ (x' ++ (x4 ++ (x5 ++ x6)))))), rfl, rfl,
      ⟨⟨x1, x2, x', x4, x5, x6, congrArg (fun t : Emitter => { t with indent := x, indents := xs }) k1, k2, k3, k4, k5, k6, j1, k8, k9, k10, List.Perm.refl _⟩,
        Loose.keep p _ rfl rfl rfl rfl rfl rfl rfl hI⟩, e'.perm (by blocks)⟩

/-- Assignments to fields that use no memory. -/
theorem erel_mod {f : HEm ω → HEm ω} {g g' : Emitter → Emitter} {I' : HEm ω → Prop}
    (hf : ∀ p, ∃ r1 r2 r3 r4, f p = { p with val := g' p.val, anchor := r1, handle := r2, suffix := r3, value := r4 })
    (hg : ∀ s x, g (s.hold x) = (g' s).hold x) (hI : ∀ p, I p → I' (f p)) :
    ERel W A base (EHas q T I) (eMod f) (modE g) (fun _ _ => EHas q T I') := by
  intro p s b fr h hp e hu
  obtain ⟨hp, hI0⟩ := hp
  have k1 : s = p.val.hold s.held := (show EHas q T I p s b from ⟨hp, hI0⟩).val
  have k2 : g s = (g' p.val).hold s.held := by
    have := hg p.val s.held
    rw [← k1] at this
    exact this
  obtain ⟨r1, r2, r3, r4, hr⟩ := hf p
  have hw0 : (f p).world = p.world := by rw [hr]
  refine ⟨(), b, rfl, ?_, ⟨?_, hI p hI0⟩, e⟩
  · show _ = (none, (f p).world)
    rw [hw0]
    rfl
  · show EAt q T (f p) (g s) b
    rw [hr, k2]
    exact eat_refs (eat_val hp (g' p.val) p.world) r1 r2 r3 r4

theorem erel_set [Loose I] {x : EState} : ERel W A base (EHas q T I) (eSetState x) (setStateE x) (fun _ _ => EHas q T I) :=
  erel_mod (g' := fun s => { s with state := x }) (fun p => ⟨p.anchor, p.handle, p.suffix, p.value, rfl⟩) (fun _ _ => rfl)
    (fun p hI => Loose.keep p _ rfl rfl rfl rfl rfl rfl rfl hI)

end

end LibYaml
