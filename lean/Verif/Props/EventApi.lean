import Verif.Proofs.EventApi

/-!
# C49: events made through the API own their data

Heaps, allocation outcomes and arguments are arbitrary. `EvHolds c ev b` says that the event has the arguments of the call and owns the blocks
`b`; `Ext` says that the heap consists of the old blocks and of these.
-/

namespace LibYaml

/-- The heap `h'` consists of the blocks of `h`, unchanged, and of the blocks `b`, which are at different addresses that were not in use. -/
structure Adds (h : Heap) (b : Blocks) (h' : Heap) : Prop where
  cells : ∀ p o, h'.mem p = some o ↔ (h.mem p = some o ∨ (p, o) ∈ b)
  distinct : (b.map Prod.fst).Nodup
  unused : ∀ x ∈ b, h.mem x.1 = none

theorem adds_nil {h h' : Heap} (a : Adds h [] h') : h'.mem = h.mem := by
  funext p
  have := a.cells p
  cases hb : h.mem p with
  | none =>
    cases hm : h'.mem p with
    | none => rfl
    | some o =>
      have := (this o).mp hm
      rw [hb] at this
      simp at this
  | some o => exact (this o).mpr (.inl hb)

/-- Whatever allocations fail, a constructor with readable arguments has no undefined behaviour. If it fails the heap is as before; if it
succeeds the arguments are valid UTF-8, and the event holds NUL-terminated copies of them in new blocks. -/
theorem C49_constructor (c : EvCall) (h : Heap) (hf : h.Fresh) (hd : c.Defined) :
    ∃ r h', c.run h = .ok (r, h') ∧ h'.Fresh ∧
      match r with
      | none => h'.mem = h.mem
      | some ev => c.Valid ∧ ∃ b, EvHolds c ev b ∧ Adds h b h' := by
  obtain ⟨r, h', hr, hq⟩ := hw_out (hw_call (A := False) (Ext.start hf (fun f => f.elim)) hd)
  refine ⟨r, h', hr, ?_⟩
  cases r with
  | none => exact ⟨hq.1.fresh, hq.1.done⟩
  | some ev =>
    obtain ⟨hv, b, hb, e⟩ := hq
    rw [List.append_nil] at e
    exact ⟨e.fresh, hv, b, hb, e.cells, e.keys, e.sep⟩

/-- An argument that is not valid UTF-8 makes the constructor fail. -/
theorem C49_invalid_rejected (c : EvCall) (h : Heap) (hf : h.Fresh) (hd : c.Defined) (hv : ¬ c.Valid) :
    ∃ h', c.run h = .ok (none, h') ∧ h'.mem = h.mem := by
  obtain ⟨r, h', hr, _, hq⟩ := C49_constructor c h hf hd
  cases r with
  | none => exact ⟨h', hr, hq⟩
  | some ev => exact absurd hq.1 hv

/-- With enough memory a constructor with valid arguments succeeds; the only other limit is the size of the array of directives. -/
theorem C49_succeeds (c : EvCall) (h : Heap) (hf : h.Fresh) (hd : c.Defined) (hm : ∀ k, h.ok k = true) (hv : c.Valid) (hb : ¬ c.TooBig) :
    ∃ ev b h', c.run h = .ok (some ev, h') ∧ EvHolds c ev b ∧ Adds h b h' := by
  obtain ⟨r, h', hr, hq⟩ := hw_out (hw_call (A := True) (Ext.start hf (fun _ => hm)) hd)
  cases r with
  | none => exact ((hq.2 trivial).elim (fun x => x hv) hb).elim
  | some ev =>
    obtain ⟨_, b, hb, e⟩ := hq
    rw [List.append_nil] at e
    exact ⟨ev, b, h', hr, hb, e.cells, e.keys, e.sep⟩

/-- `yaml_event_delete` releases all blocks of an event and nothing else, at any later time: `h` is any heap that consists of other
blocks (`h0`) and of those of the event. -/
theorem C49_delete (c : EvCall) (ev : HEvent) (b : Blocks) (h0 h : Heap) (hf : h.Fresh) (hh : EvHolds c ev b) (ha : Adds h0 b h) :
    ∃ h', eventDelete ev h = .ok ((), h') ∧ h'.mem = h0.mem := by
  have e : Ext False h0.mem (b ++ []) h := by
    rw [List.append_nil]
    exact ⟨ha.cells, ha.distinct, ha.unused, hf, fun f => f.elim⟩
  obtain ⟨_, h', hr, hq⟩ := hw_out (hw_eventDelete (Q := fun _ h' => h'.mem = h0.mem) e hh (fun h' e' => e'.done))
  exact ⟨h', hr, hq⟩

/-- Creating and deleting an event leaves no trace. -/
theorem C49_no_leak (c : EvCall) (h : Heap) (hf : h.Fresh) (hd : c.Defined) :
    ∃ h', (do match ← c.run with
              | none => return ()
              | some ev => eventDelete ev : HM Unit) h = .ok ((), h') ∧ h'.mem = h.mem := by
  obtain ⟨r, h', hr, hf', hq⟩ := C49_constructor c h hf hd
  cases r with
  | none =>
    refine ⟨h', ?_, hq⟩
    show HM.bind _ _ h = _
    unfold HM.bind
    rw [hr]
    rfl
  | some ev =>
    obtain ⟨_, b, hh, ha⟩ := hq
    obtain ⟨h2, hr2, hm2⟩ := C49_delete c ev b h h' hf' hh ha
    refine ⟨h2, ?_, hm2⟩
    show HM.bind _ _ h = _
    unfold HM.bind
    rw [hr]
    exact hr2

/-! ### Examples -/

/-- A heap with a block of somebody else's, in which the `k`-th allocation fails. -/
def demoHeap (fail : Nat) : Heap := { mem := fun p => if p = 0 then some (.version ⟨1, 1⟩) else none, next := 1, ok := fun k => k != fail }

theorem demoHeap_fresh (k : Nat) : (demoHeap k).Fresh := by
  intro p hp
  have hp : 1 ≤ p := hp
  show (if p = 0 then _ else none) = none
  rw [if_neg (by omega)]

/-- A document start with a version and a tag directive `!e!` → `tag:`. -/
def demoStart : EvCall := .documentStart (some ⟨1, 2⟩) [([33, 101, 33, 0], [116, 97, 103, 58, 0])] false

example : demoStart.Defined ∧ demoStart.Valid ∧ ¬ demoStart.TooBig := by
  refine ⟨?_, ?_, by unfold EvCall.TooBig demoStart stackLimit; decide⟩
  · intro d hd
    rcases List.mem_singleton.mp hd with rfl
    exact ⟨by decide, by decide⟩
  · intro d hd
    rcases List.mem_singleton.mp hd with rfl
    exact ⟨by decide, by decide⟩

/-- The result of a constructor and the addresses below 10 in use. -/
def demoCall (c : EvCall) (h : Heap) : Option (Option HEvent × List Nat) :=
  match c.run h with
  | .ok (r, h') => some (r, (List.range 10).filter (fun p => (h'.mem p).isSome))
  | .error _ => none

example : demoCall demoStart (demoHeap 100) = some (some (.documentStart (some 1) ⟨some 2, 1⟩ false), [0, 1, 2, 3, 4]) := by decide +kernel
/- Each of the four allocations fails. -/
example : ∀ k, k < 4 → demoCall demoStart (demoHeap k) = some (none, [0]) := by decide +kernel
/- `C3` alone is not UTF-8. -/
example : demoCall (.scalar (some [97, 0]) none [0xC3, 0x41] 1 true true .plain) (demoHeap 100) = some (none, [0]) := by decide +kernel
/- The buffer has no NUL. -/
example : demoCall (.alias [97]) (demoHeap 100) = none := by decide +kernel

end LibYaml
