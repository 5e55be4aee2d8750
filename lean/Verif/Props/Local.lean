import Verif.Proofs.Local

/-!
# C79: the scanner looks at most 8 characters ahead
-/

namespace LibYaml

open Spec

/-- **C79.** Take two inputs in the same encoding whose texts begin with the same characters `u`, and make `k` calls of `yaml_parser_scan`
on each, whatever the sizes of the reads. If after the calls on the first no error has occurred, STREAM-END has not been
delivered and the scanner stands at least 8 characters before the end of `u`, then the calls on the second, if it can be decoded and
read, have returned the same, and the state of the scanner is the same: the text further ahead has had no influence. -/
theorem C79_scanner_is_local (o o' : Oracle) (ho : NoFail o') (enc enc' : Option Enc) (bytes bytes' : List UInt8)
    (hsize : bytes.length < maxFileSize) (hsize' : bytes'.length < maxFileSize) (he : (chosen enc' bytes').1 = (chosen enc bytes).1)
    (f : Nat) (hf : bytes.length + 3 < f) (k : Nat) (u x x' : List Nat) (tail : List UInt8)
    (hs : Split (chosen enc bytes).1 (chosen enc bytes).2 (u ++ x) tail) (hs' : Split (chosen enc' bytes').1 (chosen enc' bytes').2 (u ++ x') [])
    (herr : (scanRun o f (scanStart enc bytes) k).2.error = none) (hend : (scanRun o f (scanStart enc bytes) k).2.ended = false)
    (hm : (scanRun o f (scanStart enc bytes) k).2.scanner.mark.index + 8 ≤ u.length) :
    (scanRun o' f (scanStart enc' bytes') k).1 = (scanRun o f (scanStart enc bytes) k).1 ∧
      (scanRun o' f (scanStart enc' bytes') k).2.scanner = (scanRun o f (scanStart enc bytes) k).2.scanner ∧
      (scanRun o' f (scanStart enc' bytes') k).2.ended = false ∧ (scanRun o' f (scanStart enc' bytes') k).2.error = none := by
  have hu : 0 ∉ u := fun h => permitted_ne_zero (hs.perm 0 (by simp [h])) rfl
  have hcs : (inputOf enc bytes (u ++ x) tail).cs = u ++ (x ++ if tail = [] then [0] else []) := by simp [inputOf]
  have hcs' : inputOf enc' bytes' (u ++ x') [] = ⟨u ++ (x' ++ [0]), 0, none⟩ := by simp [inputOf]
  have hlen := inputOf_length hs
  have hstart : Parallel (u ++ (x ++ if tail = [] then [0] else [])) (inputOf enc bytes (u ++ x) tail).bad (x ++ if tail = [] then [0] else [])
      (x' ++ [0]) [] [] (scanStart enc bytes) (scanStart enc' bytes') := by
    cases scanInv_start hsize hs with
    | ended _ _ _ h => cases h
    | failed _ _ _ _ _ _ h => cases h
    | going _ _ _ _ _ _ _ _ =>
      refine .going [] (inputOf enc bytes (u ++ x) tail) rfl rfl (.fresh rfl ⟨⟨⟨[], hcs.symm, rfl, ?_⟩, rfl, by simp [inputOf], ?_⟩, rfl⟩)
        (rel_init _ _ _ _ hsize hs) rfl (.inr ⟨u, hcs, Nat.zero_le _, ?_, rfl, ?_, rfl, rfl⟩)
      · rintro ⟨h, _⟩; cases h
      · intro hb
        by_cases ht : tail = []
        · simp [inputOf, ht]
        · simp [inputOf, ht] at hb
      · have := rel_init enc' bytes' _ _ hsize' hs'
        rw [hcs'] at this
        exact this
      · unfold scanStart
        rw [he]
  exact (parallel_run inputOf_badOk (by rw [← hcs]; omega) ho hstart k).same hu herr hend hm

/-- Three lines `- a`, `- b`, `- "cccccccc`. -/
private def front : List UInt8 := [45, 32, 97, 10, 45, 32, 98, 10, 45, 32, 34, 99, 99, 99, 99, 99, 99, 99, 99]

/-- After four calls (STREAM-START, BLOCK-SEQUENCE-START, BLOCK-ENTRY, `a`) the scanner stands in the second line: C79 applies to a text that
goes on with the closing quote and one that does not. -/
example : let r := scanRun (fun _ => some 7) 40 (scanStart none (front ++ [34, 10])) 4
    r.2.error = none ∧ r.2.ended = false ∧ r.2.scanner.mark.index + 8 ≤ front.length ∧ 1 ≤ r.2.scanner.mark.index := by decide +kernel

/-- Without the condition on the position it is not true: `a: b` and `a, b` begin with the same character, and the second call delivers
BLOCK-MAPPING-START for one and a scalar for the other. -/
example : (scanRun (fun _ => some 7) 40 (scanStart none [97, 58, 32, 98]) 2).1 ≠ (scanRun (fun _ => some 7) 40 (scanStart none [97, 44, 32, 98]) 2).1 := by
  decide +kernel

end LibYaml
