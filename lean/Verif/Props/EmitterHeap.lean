import Verif.Proofs.EmitterHeapRun
import Verif.Props.Emitter

/-!
# C66: the memory of the emitter

Heaps, allocation outcomes, output handlers `W`, events and settings are arbitrary. The claims compare the emitter on the heap with the emitter on
values (`Model/Emitter.lean`). `EOwn p s b`: the object `p` stands for the value `s` and owns the blocks `b`; `b` are exactly the blocks of the queue with
the events in it, of the stacks, of the tag directives and of the two buffers. `outEnv W` is the environment in which memory does not run out.
-/

namespace LibYaml

open Spec

variable {ω : Type}

/-- `yaml_emitter_initialize` never runs into undefined behaviour. If it fails, it leaves the heap as it was, and some allocation failed. -/
theorem C66_init (w : ω) (h : Heap) (hf : h.Fresh) :
    ∃ r h', emitterInit w h = .ok (r, h') ∧ h'.Fresh ∧ (r = none → h'.mem = h.mem ∧ ¬ ∀ k, h.ok k = true) ∧
      ∀ p, r = some p → p.val = {} ∧ p.world = w ∧ ∃ b, EOwn p {} b ∧ Adds h b h' := by
  refine hw_out (Q := fun r h' => h'.Fresh ∧ (r = none → h'.mem = h.mem ∧ ¬ ∀ k, h.ok k = true) ∧
      ∀ p, r = some p → p.val = {} ∧ p.world = w ∧ ∃ b, EOwn p {} b ∧ Adds h b h')
    (hw_emitterInit (bs := []) (Ext.start hf (fun (x : ∀ k, h.ok k = true) => x)) (fun h' e ha => ?_) (fun h' p b ho hv hw e => ?_))
  · exact ⟨e.fresh, fun _ => ⟨e.done, ha⟩, fun p hp => by cases hp⟩
  · rw [List.append_nil] at e
    exact ⟨e.fresh, (fun hx => by cases hx), fun q hq => by cases hq; exact ⟨hv, hw, b, ho, e.cells, e.keys, e.sep⟩⟩

/-- The setters change fields that use no memory. -/
theorem C66_settings {p : HEm ω} {b : Blocks} (h : EOwn p {} b) {s : Emitter} (hs : Fresh s) : EOwn { p with val := s } s b ∧ Sound s := by
  refine ⟨?_, .inl ⟨_, hs.between⟩⟩
  obtain ⟨q, T, h⟩ := h
  have := eat_val h s p.world
  obtain ⟨enc, ca, bi, bw, u, lb, rfl⟩ := hs
  exact ⟨q, T, this⟩

/-- One call of `yaml_emitter_emit`, with an emitter that has not met a failing write or allocation (`Sound`; it may have refused events). The heap
holds the blocks of the emitter, of the event, and of others (`h0`). The call never runs into undefined behaviour. Afterwards all new blocks belong to
the emitter object, whether the call failed or not. A successful call and a refused one do what they do on values, output included, and calls may follow;
otherwise the output so far is that on values up to the failing operation, and memory is lacking only if an allocation fails or a stack is at its limit. -/
theorem C66_emit (W : OutH ω) (ev : EvData) (e : HEvent) (p : HEm ω) (s : Emitter) (b be : Blocks) (h0 h : Heap) (hf : h.Fresh) (hs : Sound s)
    (hp : EOwn p s b) (he : EventAt ev e be) (hl : Legible ev) (hb : Adds h0 (be ++ b) h) :
    ∃ r p' h' s' b', eEmit W e p h = .ok ((r, p'), h') ∧ h'.Fresh ∧ EOwn p' s' b' ∧ Adds h0 b' h' ∧
      match r with
      | .ok () => Sound s' ∧ (emit ev s).val = .ok () ∧ (emit ev s).st = s' ∧ execOps (outEnv W) (emit ev s).ops p.world = (none, p'.world)
      | .error (.emitter x) => Sound s' ∧ (emit ev s).val = .error x ∧ (emit ev s).st = s' ∧ execOps (outEnv W) (emit ev s).ops p.world = (none, p'.world)
      | .error .writer => execOps (outEnv W) (emit ev s).ops p.world = (some s', p'.world)
      | .error .memory => NoMem W (emit ev s).ops p.world s' p'.world ∧ ((∀ k, h.ok k = true) → OverStack s') := by
  have e' : Ext (∀ k, h.ok k = true) h0.mem (be ++ (b ++ [])) h := by
    rw [List.append_nil]
    exact ⟨hb.cells, hb.distinct, hb.unused, hf, fun x => x⟩
  obtain ⟨⟨r, p'⟩, h', hr, s', b', k1, k2, k3⟩ := hw_out (hw_emit (W := W) hs hp he hl e')
  rw [List.append_nil] at k2
  refine ⟨r, p', h', s', b', hr, k2.fresh, k1, ⟨k2.cells, k2.keys, k2.sep⟩, ?_⟩
  cases r with
  | ok u => exact ⟨k3.sound hs rfl, k3⟩
  | error x =>
    cases x with
    | emitter x => exact ⟨k3.sound hs rfl, k3⟩
    | writer => exact k3
    | memory => exact k3

/-- `yaml_emitter_delete` frees exactly what the emitter owns; it may come after any call, also after a failure in the middle. -/
theorem C66_delete (p : HEm ω) (s : Emitter) (b : Blocks) (h0 h : Heap) (hf : h.Fresh) (hp : EOwn p s b) (hb : Adds h0 b h) :
    ∃ h', emitterDelete p none h = .ok ((), h') ∧ h'.mem = h0.mem := by
  have e' : Ext False h0.mem (b ++ ([] ++ [])) h := by
    rw [List.append_nil, List.append_nil]
    exact ⟨hb.cells, hb.distinct, hb.unused, hf, fun x => x.elim⟩
  obtain ⟨_, h', hr, hq⟩ := hw_out (hw_emitterDelete (Q := fun _ h' => h'.mem = h0.mem) hp (.inl ⟨rfl, rfl⟩) e' fun h' e => e.done)
  exact ⟨h', hr, hq⟩

/-! ### Whole histories -/

/-- Make events and emit them. A failing constructor (`none`) is skipped; a failing write or allocation ends the series. -/
def emitCalls (W : OutH ω) : List EvCall → HEm ω → HM (List (Option (Except EErr Unit)) × HEm ω)
  | [], p => return ([], p)
  | c :: cs, p => do
    match ← c.run with
    | none => do
      let (rs, p) ← emitCalls W cs p
      return (none :: rs, p)
    | some e => do
      let (r, p) ← eEmit W e p
      if EErr.goesOn r then do
        let (rs, p) ← emitCalls W cs p
        return (some r :: rs, p)
      else return ([some r], p)

/-- Initialize an emitter, apply settings, make events and emit them, delete the emitter: the results, and the state of the output handler. -/
def emitSession (W : OutH ω) (w : ω) (settings : Emitter) (cs : List EvCall) : HM (Option (List (Option (Except EErr Unit)) × ω)) := do
  match ← emitterInit w with
  | none => return none
  | some p => do
    let (rs, p) ← emitCalls W cs { p with val := settings }
    emitterDelete p none
    return some (rs, p.world)

/-- What a series of calls does, told with the emitter on values: `A` says that there is memory. -/
inductive EmitLog (W : OutH ω) (A : Prop) : List EvCall → Emitter → ω → List (Option (Except EErr Unit)) → Emitter → ω → Prop
  | nil {s : Emitter} {w : ω} : EmitLog W A [] s w [] s w
  | noEvent {c : EvCall} {cs : List EvCall} {s s' : Emitter} {w w' : ω} {rs : List (Option (Except EErr Unit))} (why : A → ¬ c.Valid ∨ c.TooBig)
      (rest : EmitLog W A cs s w rs s' w') : EmitLog W A (c :: cs) s w (none :: rs) s' w'
  | emitted {c : EvCall} {cs : List EvCall} {s s' : Emitter} {w w1 w' : ω} {rs : List (Option (Except EErr Unit))} {ev : EvData} (data : c.data = some ev)
      (val : (emit ev s).val = .ok ()) (out : execOps (outEnv W) (emit ev s).ops w = (none, w1)) (rest : EmitLog W A cs (emit ev s).st w1 rs s' w') :
      EmitLog W A (c :: cs) s w (some (.ok ()) :: rs) s' w'
  | refused {c : EvCall} {cs : List EvCall} {s s' : Emitter} {w w1 w' : ω} {rs : List (Option (Except EErr Unit))} {ev : EvData} {x : EFail} (data : c.data = some ev)
      (val : (emit ev s).val = .error x) (out : execOps (outEnv W) (emit ev s).ops w = (none, w1)) (rest : EmitLog W A cs (emit ev s).st w1 rs s' w') :
      EmitLog W A (c :: cs) s w (some (.error (.emitter x)) :: rs) s' w'
  | noOutput {c : EvCall} {cs : List EvCall} {s s' : Emitter} {w w' : ω} {ev : EvData} (data : c.data = some ev)
      (out : execOps (outEnv W) (emit ev s).ops w = (some s', w')) : EmitLog W A (c :: cs) s w [some (.error .writer)] s' w'
  | noMemory {c : EvCall} {cs : List EvCall} {s s' : Emitter} {w w' : ω} {ev : EvData} (data : c.data = some ev)
      (out : NoMem W (emit ev s).ops w s' w') (why : A → OverStack s') : EmitLog W A (c :: cs) s w [some (.error .memory)] s' w'

section
variable {W : OutH ω} {A : Prop} {base : Nat → Option Obj} {bs : Blocks}

theorem hw_emitCalls {cs : List EvCall} (hd : ∀ c ∈ cs, c.Defined) {p : HEm ω} {s : Emitter} {b : Blocks} {h : Heap} (hs : Sound s) (hp : EOwn p s b)
    (e : Ext A base (b ++ bs) h) :
    hw (emitCalls W cs p) (fun r h' => ∃ s' b', EOwn r.2 s' b' ∧ Ext A base (b' ++ bs) h' ∧ EmitLog W A cs s p.world r.1 s' r.2.world) h := by
  induction cs generalizing p s b h with
  | nil => exact ⟨s, b, hp, e, .nil⟩
  | cons c cs ih =>
    unfold emitCalls
    rw [hw_bind]
    refine hw_mono (hw_call e (hd c (.head _))) ?_
    intro r h1 hr
    cases r with
    | none =>
      obtain ⟨e1, hA⟩ := hr
      simp only
      rw [hw_bind]
      refine hw_mono (ih (fun c hc => hd c (.tail _ hc)) hs hp e1) ?_
      rintro ⟨rs, p'⟩ h2 ⟨s', b', k1, k2, k3⟩
      exact ⟨s', b', k1, k2, .noEvent hA k3⟩
    | some ev =>
      obtain ⟨hv, be, hh, e1⟩ := hr
      obtain ⟨data, d1, d2, d3⟩ := evHolds_event hh hv
      simp only
      rw [hw_bind]
      refine hw_mono (hw_emit (W := W) hs hp d2 d3 e1) ?_
      rintro ⟨r, p1⟩ h2 ⟨s1, b1, k1, k2, k3⟩
      simp only at k1 k3 ⊢
      rw [hw_ite]
      by_cases hg : EErr.goesOn r = true
      · rw [if_pos hg, hw_bind]
        refine hw_mono (ih (fun c hc => hd c (.tail _ hc)) (k3.sound hs hg) k1 k2) ?_
        rintro ⟨rs, p'⟩ h3 ⟨s', b', j1, j2, j3⟩
        rw [hw_pure]
        refine ⟨s', b', j1, j2, ?_⟩
        cases r with
        | ok u =>
          obtain ⟨m1, rfl, m3⟩ := k3
          exact .emitted d1 m1 m3 j3
        | error x =>
          cases x with
          | emitter x =>
            obtain ⟨m1, rfl, m3⟩ := k3
            exact .refused d1 m1 m3 j3
          | writer => cases hg
          | memory => cases hg
      · rw [if_neg hg, hw_pure]
        refine ⟨s1, b1, k1, k2, ?_⟩
        cases r with
        | ok u => exact absurd rfl hg
        | error x =>
          cases x with
          | emitter x => exact absurd rfl hg
          | writer => exact .noOutput d1 k3
          | memory => exact .noMemory d1 k3.1 k3.2

end

/-- Whole histories: initialize, make events and emit them up to the first failing write or allocation, delete. Whatever the allocations, the output
handler and the events do, there is no undefined behaviour, and in the end the heap is as it was. The results and the output are those of the emitter
on values. -/
theorem C66_history (W : OutH ω) (w : ω) (s : Emitter) (hs : Fresh s) (cs : List EvCall) (hd : ∀ c ∈ cs, c.Defined) (h : Heap) (hf : h.Fresh) :
    ∃ r h', emitSession W w s cs h = .ok (r, h') ∧ h'.mem = h.mem ∧ (r = none → ¬ ∀ k, h.ok k = true) ∧
      ∀ rs w', r = some (rs, w') → ∃ s', EmitLog W (∀ k, h.ok k = true) cs s w rs s' w' := by
  refine hw_out (Q := fun r h' => h'.mem = h.mem ∧ (r = none → ¬ ∀ k, h.ok k = true) ∧
      ∀ rs w', r = some (rs, w') → ∃ s', EmitLog W (∀ k, h.ok k = true) cs s w rs s' w') ?_
  unfold emitSession
  rw [hw_bind]
  refine hw_emitterInit (bs := []) (Ext.start hf (fun (x : ∀ k, h.ok k = true) => x)) (fun h' e ha => ?_) (fun h' p b ho hv hw e => ?_)
  · exact ⟨e.done, fun _ => ha, fun rs w' hx => by cases hx⟩
  · simp only
    rw [hw_bind]
    obtain ⟨j1, j2⟩ := C66_settings ho hs
    refine hw_mono (hw_emitCalls (W := W) (bs := []) hd j2 j1 e) ?_
    rintro ⟨rs, p1⟩ h1 ⟨s', b', k1, k2, k3⟩
    simp only at k1 k3 ⊢
    rw [hw_bind]
    refine hw_emitterDelete (y := []) (bs := []) k1 (.inl ⟨rfl, rfl⟩) k2 fun h2 e2 => ?_
    rw [hw_pure]
    refine ⟨e2.done, (fun hx => by cases hx), fun rs' w' hx => ?_⟩
    cases hx
    rw [hw] at k3
    exact ⟨s', k3⟩

/-! ### A run -/

/-- An output handler that collects the characters; the operation with number `n` fails. -/
def demoOut : OutH (List Nat × Nat)
  | op, (out, n) => if n = 0 then (false, (out, n)) else (true, (out ++ op.text, n - 1))

/-- `%TAG !e! x` `--- !e!b [&a k, *a]` -/
def demoCalls : List EvCall :=
  [.streamStart none, .documentStart none [([33, 101, 33, 0], [120, 0])] false, .sequenceStart none (some [120, 98, 0]) false .flow,
    .scalar (some [97, 0]) none [107, 0] (-1) true true .any, .alias [97, 0], .sequenceEnd, .documentEnd true, .streamEnd]

/-- The kinds of results. -/
inductive DemoResult
  | ok | refused | writer | memory | noEvent
  deriving DecidableEq

def DemoResult.of : Option (Except EErr Unit) → DemoResult
  | none => .noEvent
  | some (.ok _) => .ok
  | some (.error (.emitter _)) => .refused
  | some (.error .writer) => .writer
  | some (.error .memory) => .memory

/-- The results, the output, and the blocks in use at the end. -/
def demoEmit (cs : List EvCall) (n : Nat) (h : Heap) : Option (List DemoResult × List Nat × List Nat) :=
  match emitSession demoOut ([], n) {} cs h with
  | .ok (some r, h) => some (r.1.map .of, r.2.1, (List.range 60).filter fun p => (h.mem p).isSome)
  | .ok (none, h) => some ([], [], (List.range 60).filter fun p => (h.mem p).isSome)
  | .error _ => none

/- With memory and output. -/
example : demoEmit demoCalls 1000 (demoHeap 100) = some (List.replicate 8 .ok,
    ("%TAG !e! x\n--- !e!b [&a k, *a]\n".toList.map Char.toNat), [0]) := by decide +kernel
/- Whichever allocation fails: the heap is as it was. The initialization makes six. -/
example : ∀ k, k < 22 → (demoEmit demoCalls 1000 (demoHeap k)).map (fun r => r.2.2) = some [0] := by decide +kernel
example : demoEmit demoCalls 1000 (demoHeap 5) = some ([], [], [0]) := by decide +kernel
example : demoEmit demoCalls 1000 (demoHeap 12) = some ([.ok, .ok, .memory], [], [0]) := by decide +kernel
/- Whichever output operation fails: the same. -/
example : ∀ k, k < 31 → (demoEmit demoCalls k (demoHeap 100)).map (fun r => r.2.2) = some [0] := by decide +kernel
example : (demoEmit demoCalls 29 (demoHeap 100)).map Prod.fst = some [.ok, .ok, .ok, .ok, .ok, .writer] := by decide +kernel
/- An event cannot be made, later events are refused, and the client goes on. -/
example : (demoEmit demoCalls 1000 (demoHeap 9)).map (fun r => (r.1, r.2.2)) =
    some ([.ok, .ok, .noEvent, .ok, .refused, .refused, .refused, .refused], [0]) := by decide +kernel

example : (∀ c ∈ demoCalls, c.Defined) ∧ Fresh {} := by
  refine ⟨?_, none, false, 0, 0, false, none, rfl⟩
  intro c hc
  simp only [demoCalls, List.mem_cons, List.not_mem_nil, or_false] at hc
  rcases hc with rfl | rfl | rfl | rfl | rfl | rfl | rfl | rfl <;> simp [EvCall.Defined, OptDef, ValueDef, DirDef]

/-! ### After a failing write -/

/-- A client that goes on after a failing write. -/
def emitRegardless (W : OutH ω) : List EvCall → HEm ω → HM (HEm ω)
  | [], p => return p
  | c :: cs, p => do
    match ← c.run with
    | none => emitRegardless W cs p
    | some e => do
      let (_, p) ← eEmit W e p
      emitRegardless W cs p

/-- Initialize an emitter and emit events, whatever fails. -/
def demoRegardless (n : Nat) : HM (Option (HEm (List Nat × Nat))) := do
  match ← emitterInit ([], n) with
  | none => return none
  | some p => return some (← emitRegardless demoOut (demoCalls.take 7) p)

/-- After a failing write `yaml_emitter_emit` must not be called again: here the write of `]` fails after the indent was taken from the stack
(emitter.c:761-773), and the next call, which finds `SEQUENCE-END` still in the queue, takes another one from the empty stack: it reads in front of the
block. There is memory, the events are valid, and the failing call returned 0 with `YAML_WRITER_ERROR`. -/
theorem C66_after_failed_write : (match demoRegardless 29 (demoHeap 100) with | .error .ub => true | _ => false) = true := by decide +kernel

/- The same calls with a handler that fails earlier, later, or not at all. -/
example : ∀ n, n < 32 → n ≠ 29 → (match demoRegardless n (demoHeap 100) with | .error _ => true | _ => false) = false := by decide +kernel

end LibYaml
