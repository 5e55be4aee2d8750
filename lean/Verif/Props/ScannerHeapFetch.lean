import Verif.Proofs.ScannerHeapSession
import Verif.Props.ScannerHeap

/-!
# C72: the memory of the scanner

`scanOpen` initializes a parser and makes at most `k` calls of `yaml_parser_scan`; `scanSession` goes on to delete the parser and the tokens
(`Model/ScannerHeapFetch.lean`). Inputs, read handlers, numbers of calls, heaps and allocation outcomes are arbitrary. The calls are compared with those
on values (`scanRun`), of which C18 to C24 speak.
-/

namespace LibYaml

open Spec

/-- The tokens `ts` were delivered and then the calls ended with `e`: how that compares with `scanRun`, which knows no shortage of memory. The parser
`x` is left; `A` says that all allocations succeed. -/
structure SameRun (o : Oracle) (A : Prop) (f k : Nat) (enc : Option Enc) (bytes : List UInt8) (ts : List Token) (e : ScanEnd) (x : HScan) : Prop where
  /-- the same tokens -/
  tokens : (scanRun o f (scanStart enc bytes) ts.length).1 = ts.map .token
  /-- no call failed: STREAM-END was delivered, or all `k` calls were made -/
  all : e = .all → ts.length = k ∨ (scanRun o f (scanStart enc bytes) ts.length).2.ended = true
  /-- a call failed: so it did on values, and for the same reason; or an allocation failed, or a stack is full -/
  failed : ∀ er, e = .failed er →
    (∃ fl, (scanRun o f (scanStart enc bytes) (ts.length + 1)).1 = ts.map .token ++ [.failed] ∧
      (scanRun o f (scanStart enc bytes) (ts.length + 1)).2.error = some fl ∧ er = some fl) ∨
    ((er = none ∨ er = some .memory) ∧ (A → ScanFull x))

section
variable (o : Oracle) (enc : Option Enc) (bytes : List UInt8) (hsize : bytes.length < maxFileSize) (f : Nat) (hf : bytes.length + 3 < f) (k : Nat)
variable (h : Heap) (hh : h.Fresh)
include hsize hf hh

theorem hw_scanOpen : hw (scanOpen o f k enc bytes) (fun r h' => match r with
    | none => Ext (∀ k, h.ok k = true) h.mem [] h' ∧ ¬ ∀ k, h.ok k = true
    | some (vs, e, p) => ∃ ts bt b', TokensAt ts vs bt ∧ Left p b' ∧ Ext (∀ k, h.ok k = true) h.mem (b' ++ (bt ++ [])) h' ∧
        SameRun o (∀ k, h.ok k = true) f k enc bytes ts e p.src) h := by
  have e := Ext.start hh (fun (y : ∀ k, h.ok k = true) => y)
  let _ : Strict := ⟨False⟩
  let _ : SrcInv (Scanner × RS) := ⟨fun _ => True⟩
  unfold scanOpen
  rw [hw_bind]
  refine hw_parserInit (scan_starts (o := o) (f := f) (enc := enc) (bytes := bytes) trivial) e (fun h' p e' ha => ?_) fun h' p b ho e' => ?_
  · simp only [Bool.not_false, if_true]
    rw [hw_pure]
    exact ⟨e', ha⟩
  · obtain ⟨x1, x2, x3, x4, x5, j1, j2, j3, ⟨j4, rfl⟩, ⟨hr, -⟩, -, -, -, hb⟩ := ho
    simp only [Bool.not_true, Bool.false_eq_true, if_false]
    rw [hw_bind]
    refine hw_mono (hw_fScan (n := 0) (k := k) (f := f) (o := o) (enc := enc) (bytes := bytes) (c := x1 ++ (x2 ++ x3)) hsize hf rfl rfl hr e'
      (by blocks_by (hb.append_right []))) ?_
    rintro ⟨vs, en, x'⟩ h2 ⟨ts, bt, s', inp', b', k1, k2, k3, k4⟩
    rw [hw_pure]
    have ho : (scanRun o f (scanStart enc bytes) ts.length).1 = ts.map .token := by simpa [after, scanRun] using k4.outs
    refine ⟨ts, bt, x1 ++ (x2 ++ (x3 ++ ([] ++ b'))), k1, ⟨_, _, _, none, x1, x2, x3, [], b', j1, j2, j3, ⟨j4, rfl⟩, ⟨_, _, k2⟩, List.Perm.refl _⟩,
      k3.perm (by blocks), ho, ?_, ?_⟩
    · simpa [after] using k4.all
    · intro er he
      rw [← ho]
      simpa [after] using k4.failed er he

/-- **C72, the tokens.** Initializing a parser and scanning is defined. Without a parser the heap is as before and an allocation failed. Otherwise the tokens
delivered are those of the calls on values, until a call fails; the new blocks are those of the tokens (`bt`) and those of the parser (`bp`). -/
theorem C72_tokens : ∃ r h', scanOpen o f k enc bytes h = .ok (r, h') ∧ h'.Fresh ∧
    match r with
    | none => h'.mem = h.mem ∧ ¬ ∀ k, h.ok k = true
    | some (vs, e, p) => ∃ ts bt bp, TokensAt ts vs bt ∧ Adds h (bp ++ bt) h' ∧ SameRun o (∀ k, h.ok k = true) f k enc bytes ts e p.src := by
  obtain ⟨r, h', hrun, post⟩ := hw_out (hw_scanOpen o enc bytes hsize f hf k h hh)
  refine ⟨r, h', hrun, ?_⟩
  rcases r with - | ⟨vs, e, x⟩
  · exact ⟨post.1.fresh, post.1.done, post.2⟩
  · obtain ⟨ts, bt, b', k1, k2, k3, k4⟩ := post
    have e2 : Ext (∀ k, h.ok k = true) h.mem (b' ++ bt) h' := k3.perm (by simp)
    exact ⟨e2.fresh, ts, bt, b', k1, ⟨e2.cells, e2.keys, e2.sep⟩, k4⟩

/-- **C72, the memory.** However a session ends, and after any number of calls, deleting the parser and the tokens leaves the heap as it was. -/
theorem C72_session : ∃ r h', scanSession o f k enc bytes h = .ok (r, h') ∧ h'.Fresh ∧ h'.mem = h.mem ∧ (r = none → ¬ ∀ k, h.ok k = true) := by
  let _ : Strict := ⟨False⟩
  have hw' : hw (scanSession o f k enc bytes) (fun r h' => Ext (∀ k, h.ok k = true) h.mem [] h' ∧ (r = none → ¬ ∀ k, h.ok k = true)) h := by
    unfold scanSession
    rw [hw_bind]
    refine hw_mono (hw_scanOpen o enc bytes hsize f hf k h hh) ?_
    rintro (- | ⟨vs, e, x⟩) h' post
    · rw [hw_pure]
      exact ⟨post.1, fun _ => post.2⟩
    · obtain ⟨ts, bt, b', k1, k2, k3, k4⟩ := post
      simp only
      rw [hw_bind]
      refine hw_parserDelete scan_closes k2 k3 fun h1 e1 => ?_
      rw [hw_bind]
      refine hw_deleteTokens k1 e1 (List.Perm.refl _) fun h2 e2 => ?_
      rw [hw_pure]
      exact ⟨e2, fun hn => by cases hn⟩
  obtain ⟨r, h', hrun, e, hn⟩ := hw_out hw'
  exact ⟨r, h', hrun, e.fresh, e.done, hn⟩

end

/-- How a session ended. -/
def sessionEnd (r : Except Fail (Option (List HToken × ScanEnd) × Heap)) : Option (Nat × ScanEnd) :=
  match r with
  | .ok (some (ts, e), _) => some (ts.length, e)
  | _ => none

/-- `a: [b]` has ten tokens. -/
example : sessionEnd (scanSession (fun _ => some 2) 20 12 none sample (demoHeap 99)) = some (10, .all) := by decide +kernel

/-- The eighth allocation is the last one of `yaml_parser_initialize`; the ninth one is the string of the first scalar. -/
example : sessionEnd (scanSession (fun _ => some 2) 20 12 none sample (demoHeap 7)) = none := by decide +kernel
example : sessionEnd (scanSession (fun _ => some 2) 20 12 none sample (demoHeap 8)) = some (1, .failed (some .memory)) := by decide +kernel

/-- A session may end early. -/
example : sessionEnd (scanSession (fun _ => some 2) 20 4 none sample (demoHeap 99)) = some (4, .all) := by decide +kernel

/-- An unclosed quoted scalar. -/
example : sessionEnd (scanSession (fun _ => some 2) 20 4 none [34, 97] (demoHeap 99)) =
    some (1, .failed (some (.scanner (some "while scanning a quoted scalar") {} "found unexpected end of stream" { index := 2, line := 0, column := 2 }))) := by
  decide +kernel

end LibYaml
