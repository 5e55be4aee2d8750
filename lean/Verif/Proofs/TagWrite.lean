import Verif.Proofs.TagScan
import Verif.Proofs.QuotedWrite

/-! # What the emitter writes for tags, anchors and directives -/

namespace LibYaml

open Spec

variable {s : Emitter}

theorem tw_writeEscapes {bs : List UInt8} {Q : Unit → Text → Emitter → Prop} :
    tw (writeEscapes bs) Q s ↔ Q () (bs.flatMap pct) { s with column := s.column + (bs.flatMap pct).length } := by
  induction bs generalizing s Q with
  | nil => exact Iff.rfl
  | cons b bs ih =>
    unfold writeEscapes
    rw [tw_bind, tw_putC, tw_bind, tw_putC, tw_bind, tw_putC, ih]
    have e : s.column + 1 + 1 + 1 + (bs.flatMap pct).length = s.column + ((b :: bs).flatMap pct).length := by
      rw [List.flatMap_cons, List.length_append]; simp only [pct, List.length_cons, List.length_nil]; omega
    simp only [e]
    exact Iff.rfl

theorem tw_writeTagChars {v : Text} {Q : Unit → Text → Emitter → Prop} :
    tw (writeTagChars v) Q s ↔ Q () (tagText v) { s with column := s.column + (tagText v).length } := by
  induction v generalizing s Q with
  | nil => exact Iff.rfl
  | cons c v ih =>
    unfold writeTagChars
    rw [tw_bind, tw_ite]
    have e : ∀ k, s.column + k + (tagText v).length = s.column + (k + (tagText v).length) := by intros; omega
    rw [tagText_cons, List.length_append]
    unfold tagPiece
    by_cases h : tagChar c = true
    · rw [if_pos h, if_pos h, tw_putC, ih]
      simp only [e]
      exact Iff.rfl
    · rw [if_neg h, if_neg h, tw_writeEscapes, ih]
      simp only [e]

theorem tw_writeTagContent {v : Text} {nw : Bool} {Q : Unit → Text → Emitter → Prop} :
    tw (writeTagContent v nw) Q s ↔ Q () ((if (nw && !s.whitespace) = true then [0x20] else []) ++ tagText v)
      { s with column := s.column + (if (nw && !s.whitespace) = true then 1 else 0) + (tagText v).length, whitespace := false, indention := false } := by
  unfold writeTagContent
  rw [tw_bind, tw_getE, tw_bind, tw_whenE]
  cases h : (nw && !s.whitespace) with
  | true =>
    simp only [if_true]
    rw [tw_putC, tw_bind, tw_writeTagChars, tw_setWs]
    simp
  | false =>
    simp only [Bool.false_eq_true, if_false]
    rw [tw_bind, tw_writeTagChars, tw_setWs]
    simp

theorem tw_writeTagHandle {v : Text} {Q : Unit → Text → Emitter → Prop} :
    tw (writeTagHandle v) Q s ↔ Q () (lead s ++ v)
      { s with column := s.column + (lead s).length + v.length, whitespace := false, indention := false } := by
  unfold writeTagHandle lead
  rw [tw_bind, tw_getE, tw_bind, tw_whenE]
  cases h : s.whitespace with
  | false =>
    simp only [Bool.not_false, if_true, Bool.false_eq_true, if_false]
    rw [tw_putC, tw_bind, tw_writeAll, tw_setWs]
    simp
  | true =>
    simp only [Bool.not_true, if_true, Bool.false_eq_true, if_false]
    rw [tw_bind, tw_writeAll, tw_setWs]
    simp

theorem tw_processTag {x : Text} (hx : s.tagSuffix = some x) {Q : Unit → Text → Emitter → Prop} :
    tw processTag Q s ↔ Q () (lead s ++ tagForm s.tagHandle x)
      { s with column := s.column + (lead s).length + (tagForm s.tagHandle x).length, whitespace := false, indention := false } := by
  unfold processTag
  rw [tw_bind, tw_getE]
  rw [hx]
  cases hh : s.tagHandle with
  | some h =>
    simp only []
    rw [tw_bind, tw_writeTagHandle, tw_writeTagContent]
    simp [tagForm, Nat.add_assoc, hx, hh]
  | none =>
    simp only []
    rw [tw_bind, tw_writeIndicator, tw_bind, tw_writeTagContent, tw_writeIndicator]
    unfold lead
    cases hw : s.whitespace <;> simp [tagForm, Nat.add_assoc, Nat.add_comm, Nat.add_left_comm, hx, hh]

theorem tw_writeAnchor {v : Text} {Q : Unit → Text → Emitter → Prop} :
    tw (writeAnchor v) Q s ↔ Q () v { s with column := s.column + v.length, whitespace := false, indention := false } := by
  unfold writeAnchor
  rw [tw_bind, tw_writeAll, tw_setWs]
  simp

theorem tw_processAnchor {v : Text} (hv : s.anchor = some v) {Q : Unit → Text → Emitter → Prop} :
    tw processAnchor Q s ↔ Q () (lead s ++ (if s.anchorIsAlias = true then 42 else 38) :: v)
      { s with column := s.column + (lead s).length + 1 + v.length, whitespace := false, indention := false } := by
  unfold processAnchor
  rw [tw_bind, tw_getE, hv]
  simp only []
  rw [tw_bind, tw_writeIndicator, tw_writeAnchor]
  unfold lead
  cases s.whitespace <;> cases s.anchorIsAlias <;> simp [Nat.add_assoc, hv]

end LibYaml
