import Verif.Proofs.Heap

/-!
# Queues in the heap
-/

namespace LibYaml

/-- A queue with its head first. -/
def QueAt {α : Type} [Cell α] (es : List α) (q : HQue) (b : Blocks) : Prop :=
  ∃ a i n, q = ⟨some a, i, i + es.length⟩ ∧ i + es.length + n ≠ 0 ∧
    b = [(a, Cell.wrap (List.replicate i none ++ (es.map some ++ List.replicate n none)))]

section
variable {α : Type} [Cell α] [LawfulCell α] {A : Prop} {base : Nat → Option Obj} {bs bs' : Blocks} {h : Heap}

theorem hw_qCells {a i t : Nat} {c : List (Option α)} {Q : List (Option α) → Heap → Prop} (e : Ext A base bs h) (hm : (a, Cell.wrap c) ∈ bs)
    (hQ : Q c h) : hw (qCells ⟨some a, i, t⟩) Q h :=
  hw_cells (α := α) (c := c) e hm hQ

theorem hw_qAt {es : List α} {q : HQue} {x : Blocks} {i : Nat} {v : α} {Q : α → Heap → Prop} (hq : QueAt es q x) (e : Ext A base bs h)
    (hx : ∀ y ∈ x, y ∈ bs) (hi : es[i]? = some v) (hQ : Q v h) : hw (qAt q i) Q h := by
  obtain ⟨a, j, n, rfl, _, rfl⟩ := hq
  unfold qAt
  rw [hw_bind]
  refine hw_qCells e (hx _ List.mem_cons_self) ?_
  have hlt : i < es.length := by
    rcases Nat.lt_or_ge i es.length with h | h
    · exact h
    · rw [List.getElem?_eq_none h] at hi; cases hi
  have : (List.replicate j none ++ (es.map some ++ List.replicate n none) : List (Option α))[j + i]? = some (some v) := by
    rw [List.getElem?_append_right (by simp), List.length_replicate, Nat.add_sub_cancel_left, List.getElem?_append_left (by simpa using hlt),
      List.getElem?_map, hi]
    rfl
  simp only [this]
  exact hQ

theorem hw_qPop {es : List α} {q : HQue} {x : Blocks} {v : α} {Q : α × HQue → Heap → Prop} (hq : QueAt (v :: es) q x) (e : Ext A base bs h)
    (hp : bs.Perm (x ++ bs')) (h1 : ∀ h' q' x', QueAt es q' x' → Ext A base (x' ++ bs') h' → Q (v, q') h') : hw (qPop q) Q h := by
  obtain ⟨a, j, n, rfl, _, rfl⟩ := hq
  unfold qPop
  rw [hw_bind]
  refine hw_qCells e (hp.mem_iff.mpr List.mem_cons_self) ?_
  have hg : (List.replicate j none ++ ((v :: es).map some ++ List.replicate n none) : List (Option α))[j]? = some (some v) := by
    rw [List.getElem?_append_right (by simp)]
    simp
  have hs : (List.replicate j none ++ ((v :: es).map some ++ List.replicate n none) : List (Option α)).set j none =
      List.replicate (j + 1) none ++ (es.map some ++ List.replicate n none) := by
    rw [List.set_append_right _ _ (by simp)]
    simp [List.replicate_succ']
  simp only [hg, hs]
  rw [hw_bind]
  refine hw_store e hp fun h' e' => ?_
  exact h1 h' _ _ ⟨a, j + 1, n, by simp only [List.length_cons]; congr 1; omega, by omega, rfl⟩ e'

theorem memcpy_queue {es : List α} {v : α} {i n : Nat} :
    memcpy (List.replicate i none ++ (es.map some ++ List.replicate (n + 1) none)) (i + es.length) [some v] =
      .ok (List.replicate i none ++ ((es ++ [v]).map some ++ List.replicate n none)) := by
  have := memcpy_push (α := α) (vs := es) (v := v) (n := n)
  unfold memcpy at this ⊢
  rw [if_pos (by simp)] at this
  rw [if_pos (by simp; omega)]
  injection this with this
  congr 1
  have e1 : (List.replicate i none ++ (es.map some ++ List.replicate (n + 1) none) : List (Option α)).take (i + es.length) =
      List.replicate i none ++ (es.map some ++ List.replicate (n + 1) none : List (Option α)).take es.length := by
    rw [List.take_append, List.take_of_length_le (by simp)]
    simp
  have e2 : (List.replicate i none ++ (es.map some ++ List.replicate (n + 1) none) : List (Option α)).drop (i + es.length + [some v].length) =
      (es.map some ++ List.replicate (n + 1) none : List (Option α)).drop (es.length + [some v].length) := by
    rw [List.drop_append, List.drop_of_length_le (by simp; omega)]
    simp only [List.length_replicate, List.nil_append]
    congr 1
    omega
  rw [e1, e2, List.append_assoc, List.append_assoc, ← this, List.append_assoc]

theorem hw_qPut {es : List α} {a i n : Nat} {v : α} {Q : Bool × HQue → Heap → Prop} {o : Obj} (e : Ext A base bs h)
    (hp : bs.Perm ((a, o) :: bs')) (h1 : ∀ h' q' x', QueAt (es ++ [v]) q' x' → Ext A base (x' ++ bs') h' → Q (true, q') h') :
    hw (qPut v ⟨some a, i, i + es.length⟩ (List.replicate i none ++ (es.map some ++ List.replicate (n + 1) none))) Q h := by
  unfold qPut
  simp only [memcpy_queue]
  rw [hw_bind]
  refine hw_store e hp fun h' e' => ?_
  exact h1 h' _ _ ⟨a, i, n, by simp [Nat.add_assoc], by simp, rfl⟩ e'

theorem hw_qPush {es : List α} {q : HQue} {x : Blocks} {v : α} {Q : Bool × HQue → Heap → Prop} (hq : QueAt es q x) (e : Ext A base bs h)
    (hp : bs.Perm (x ++ bs')) (h0 : ∀ h', Ext A base bs h' → ¬ A → Q (false, q) h')
    (h1 : ∀ h' q' x', QueAt (es ++ [v]) q' x' → Ext A base (x' ++ bs') h' → Q (true, q') h') : hw (qPush v q) Q h := by
  obtain ⟨a, j, n, rfl, hne, rfl⟩ := hq
  unfold qPush
  rw [hw_bind]
  refine hw_qCells e (hp.mem_iff.mpr List.mem_cons_self) ?_
  rw [hw_ite]
  cases n with
  | succ n =>
    rw [if_pos (by simp)]
    exact hw_qPut e hp h1
  | zero =>
    rw [if_neg (by simp), hw_bind]
    unfold qGrow
    rw [hw_ite]
    cases j with
    | zero =>
      rw [if_pos (by simp), hw_bind]
      refine hw_malloc e (fun h' e' ha => ?_) (fun h' p e' => ?_)
      · rw [hw_pure]
        simp only [Bool.not_false, if_true]
        rw [hw_pure]
        exact h0 h' e' ha
      · simp only []
        rw [hw_bind]
        refine hw_free (bs' := (p, _) :: bs') e' ((hp.cons _).trans (List.Perm.swap _ _ _)) (fun h2 e2 => ?_)
        rw [hw_pure]
        have hc : (List.replicate 0 none ++ (es.map some ++ List.replicate 0 none) : List (Option α)) = es.map some := by simp
        simp only [Bool.not_true, Bool.false_eq_true, if_false, hc, List.length_map]
        have hl : 0 < es.length := by
          rcases Nat.eq_zero_or_pos es.length with h | h
          · exact absurd (by simp [h]) hne
          · exact h
        unfold qMove
        rw [if_neg (by simp only [List.length_append, List.length_map, List.length_replicate]; omega)]
        obtain ⟨m, hm⟩ : ∃ m, es.length = m + 1 := ⟨es.length - 1, by omega⟩
        have := hw_qPut (es := es) (i := 0) (a := p) (n := m) (v := v) (Q := Q) e2 (List.Perm.refl _) h1
        rw [← hm] at this
        simpa using this
    | succ j =>
      rw [if_neg (by simp), hw_pure]
      simp only [Bool.not_true, Bool.false_eq_true, if_false]
      unfold qMove
      rw [if_pos (by simp)]
      have hlive : ((List.replicate (j + 1) none ++ (es.map some ++ List.replicate 0 none) : List (Option α)).take (j + 1 + es.length)).drop (j + 1) =
          es.map some := by
        rw [List.take_of_length_le (by simp), List.drop_append, List.drop_of_length_le (by simp)]
        simp
      simp only [hlive]
      have hlen : (List.replicate (j + 1) none ++ (es.map some ++ List.replicate 0 none) : List (Option α)).length - (es.map some).length = j + 1 := by
        simp
      have ht : j + 1 + es.length - (j + 1) = es.length := by omega
      rw [hlen, ht]
      have := hw_qPut (es := es) (i := 0) (a := a) (n := j) (v := v) (Q := Q) e hp h1
      simpa using this

end


end LibYaml
