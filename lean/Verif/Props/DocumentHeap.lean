import Verif.Proofs.DocumentHeap
import Verif.Props.EventApi

/-!
# C52: the document API owns what it allocates

Heaps, allocation outcomes, arguments and histories of calls are arbitrary. `DocAt d hd b`: the document `hd` in the heap has the nodes,
directives and flags of the document `d` of the model on values (C16, C17), and owns the blocks `b`.
-/

namespace LibYaml

open Spec

/-- `yaml_document_initialize`: a failure leaves the heap as it was; a success gives an empty document with copies of the directives. -/
theorem C52_initialize (v : Option Version) (ts : List (List UInt8 × List UInt8)) (i j : Bool) (h : Heap) (hf : h.Fresh) (hz : ∀ d ∈ ts, DirDef d) :
    ∃ r h', documentInit v ts i j h = .ok (r, h') ∧ h'.Fresh ∧
      match r with
      | none => h'.mem = h.mem
      | some hd => (∀ d ∈ ts, DirOk d) ∧ ∃ tags b, tags.map dirText = ts.map dirBytes ∧
          DocAt { version := v, tags, startImplicit := i, endImplicit := j } hd b ∧ Adds h b h' := by
  obtain ⟨r, h', hr, hq⟩ := hw_out (hw_documentInit (A := False) (v := v) (i := i) (j := j)
    (Q := fun r h' => h'.Fresh ∧ match r with
      | none => h'.mem = h.mem
      | some hd => (∀ d ∈ ts, DirOk d) ∧ ∃ tags b, tags.map dirText = ts.map dirBytes ∧
          DocAt { version := v, tags, startImplicit := i, endImplicit := j } hd b ∧ Adds h b h')
    (Ext.start hf (fun f => f.elim)) hz (fun h' e' _ => ⟨e'.fresh, e'.done⟩) (fun h' hd b tags h1 h2 h3 e' => by
      rw [List.append_nil] at e'
      exact ⟨e'.fresh, h1, tags, b, h2, h3, e'.cells, e'.keys, e'.sep⟩))
  exact ⟨r, h', hr, hq⟩

/-- With memory, `yaml_document_initialize` succeeds on valid directives, unless there are too many of them. -/
theorem C52_initialize_succeeds (v : Option Version) (ts : List (List UInt8 × List UInt8)) (i j : Bool) (h : Heap) (hf : h.Fresh) (hz : ∀ d ∈ ts, DirDef d)
    (hm : ∀ k, h.ok k = true) (hv : ∀ d ∈ ts, DirOk d) (hb : ¬ stackLimit (Ptr × Ptr) ts.length) :
    ∃ hd h', documentInit v ts i j h = .ok (some hd, h') := by
  obtain ⟨r, h', hr, hq⟩ := hw_out (hw_documentInit (A := True) (v := v) (i := i) (j := j) (Q := fun r _ => r.isSome = true)
    (Ext.start hf (fun _ => hm)) hz (fun h' e' hA => ((hA trivial).elim (fun x => x hv) hb).elim) (fun _ _ _ _ _ _ _ _ => rfl))
  obtain ⟨hd, rfl⟩ := Option.isSome_iff_exists.mp hq
  exact ⟨hd, h', hr⟩

/-- One call. If the assertions of the call hold (`(c.op true).run d` is defined), it does what the model on values does, with some outcome
`ok` of the allocations; afterwards the document owns all blocks that are not of others (`h0`). If no allocation fails and nothing is at its
maximal size then `ok` is true. -/
theorem C52_call (c : DocCall) (d : Doc) (hd : HDoc) (b : Blocks) (h0 h : Heap) (hf : h.Fresh) (ha : DocAt d hd b) (hb : Adds h0 b h)
    (hz : c.Defined) (hok : ∃ r, (c.op true).run d = .ok r) :
    ∃ r hd' h' ok d' b', c.run hd h = .ok ((r, hd'), h') ∧ (c.op ok).run d = .ok (r, d') ∧ DocAt d' hd' b' ∧ Adds h0 b' h' ∧ h'.Fresh ∧
      ((∀ k, h.ok k = true) → ok = true ∨ d.Full) := by
  have e : Ext (∀ k, h.ok k = true) h0.mem (b ++ []) h := by
    rw [List.append_nil]
    exact ⟨hb.cells, hb.distinct, hb.unused, hf, fun x => x⟩
  obtain ⟨r, h', hr, ok, d', b', h1, h2, h3, h4, h5⟩ := hw_out (hw_docCall
    (Q := fun r h' => ∃ ok d' b', (c.op ok).run d = .ok (r.1, d') ∧ DocAt d' r.2 b' ∧ Adds h0 b' h' ∧ h'.Fresh ∧ ((∀ k, h.ok k = true) → ok = true ∨ d.Full))
    e ha hz hok (fun h' r hd' ok d' b' h1 h2 h3 h4 => by
      rw [List.append_nil] at h3
      exact ⟨ok, d', b', h1, h2, ⟨h3.cells, h3.keys, h3.sep⟩, h3.fresh, h4⟩))
  exact ⟨r.1, r.2, h', ok, d', b', hr, h1, h2, h3, h4, h5⟩

/-- `yaml_document_delete` frees every block of the document, once, and nothing else. -/
theorem C52_delete (d : Doc) (hd : HDoc) (b : Blocks) (h0 h : Heap) (hf : h.Fresh) (ha : DocAt d hd b) (hb : Adds h0 b h) :
    ∃ h', documentDelete hd h = .ok ((), h') ∧ h'.mem = h0.mem := by
  have e : Ext False h0.mem (b ++ []) h := by
    rw [List.append_nil]
    exact ⟨hb.cells, hb.distinct, hb.unused, hf, fun f => f.elim⟩
  obtain ⟨_, h', hr, hq⟩ := hw_out (hw_documentDelete (Q := fun _ h' => h'.mem = h0.mem) e ha (fun h' e' => e'.done))
  exact ⟨h', hr, hq⟩

/-! ### Histories -/

/-- A program that calls the API; the next call may depend on the results so far. -/
inductive Client
  | stop
  | call (c : DocCall) (next : Int → Client)

def Client.run : Client → HDoc → HM HDoc
  | .stop, d => return d
  | .call c next, d => do
    let (r, d) ← c.run d
    (next r).run d

/-- The program respects the assertions of the API and passes readable buffers, however the allocations turn out. -/
def Client.Proper : Client → Doc → Prop
  | .stop, _ => True
  | .call c next, d => c.Defined ∧ (∃ r, (c.op true).run d = .ok r) ∧ ∀ ok r d', (c.op ok).run d = .ok (r, d') → (next r).Proper d'

/-- The document a program ends with, for some outcomes of the allocations. -/
inductive Client.Ends : Client → Doc → Doc → Prop
  | stop (d) : Client.Ends .stop d d
  | call (c next d ok r d' d'') : (c.op ok).run d = .ok (r, d') → Client.Ends (next r) d' d'' → Client.Ends (.call c next) d d''

theorem C52_program (p : Client) (d : Doc) (hd : HDoc) (b : Blocks) (h0 h : Heap) (hf : h.Fresh) (ha : DocAt d hd b) (hb : Adds h0 b h)
    (hp : p.Proper d) : ∃ hd' h' d' b', p.run hd h = .ok (hd', h') ∧ p.Ends d d' ∧ DocAt d' hd' b' ∧ Adds h0 b' h' ∧ h'.Fresh := by
  induction p generalizing d hd b h with
  | stop => exact ⟨hd, h, d, b, rfl, .stop d, ha, hb, hf⟩
  | call c next ih =>
    obtain ⟨p1, p2, p3⟩ := hp
    obtain ⟨r, hd1, h1, ok, d1, b1, k1, k2, k3, k4, k5, _⟩ := C52_call c d hd b h0 h hf ha hb p1 p2
    obtain ⟨hd2, h2, d2, b2, j1, j2, j3, j4, j5⟩ := ih r d1 hd1 b1 h1 k5 k3 k4 (p3 ok r d1 k2)
    refine ⟨hd2, h2, d2, b2, ?_, .call c next d ok r d1 d2 k2 j2, j3, j4, j5⟩
    show HM.bind _ _ h = _
    unfold HM.bind
    rw [k1]
    exact j1

/-- Creating a document, any program over it, and deleting it: nothing leaks, nothing is freed twice, nothing dangling is used. -/
theorem C52_no_leak (v : Option Version) (ts : List (List UInt8 × List UInt8)) (i j : Bool) (p : Client) (h : Heap) (hf : h.Fresh)
    (hz : ∀ d ∈ ts, DirDef d) (hp : ∀ tags, tags.map dirText = ts.map dirBytes → p.Proper { version := v, tags, startImplicit := i, endImplicit := j }) :
    ∃ h', (do match ← documentInit v ts i j with
              | none => return ()
              | some hd => documentDelete (← p.run hd) : HM Unit) h = .ok ((), h') ∧ h'.mem = h.mem := by
  obtain ⟨r, h1, hr, hf1, hq⟩ := C52_initialize v ts i j h hf hz
  cases r with
  | none =>
    refine ⟨h1, ?_, hq⟩
    show HM.bind _ _ h = _
    unfold HM.bind
    rw [hr]
    rfl
  | some hd =>
    obtain ⟨_, tags, b, ht, ha, hb⟩ := hq
    obtain ⟨hd2, h2, d2, b2, j1, _, j3, j4, j5⟩ := C52_program p _ hd b h h1 hf1 ha hb (hp tags ht)
    obtain ⟨h3, hr3, hm3⟩ := C52_delete d2 hd2 b2 h h2 j5 j3 j4
    refine ⟨h3, ?_, hm3⟩
    show HM.bind _ _ h = _
    unfold HM.bind
    rw [hr]
    show HM.bind _ _ h1 = _
    unfold HM.bind
    rw [j1]
    exact hr3

/-! ### Examples -/

/-- Make the sequence `[a, [a, …]]` that contains itself; stop when something fails. -/
def demoClient : Client :=
  .call (.addSequence none .block) fun s => if s = 0 then .stop else
    .call (.addScalar none [97] 1 .plain) fun k => if k = 0 then .stop else
      .call (.appendItem s k) fun _ => .call (.appendItem s s) fun _ => .stop

example : demoClient.Proper {} := by
  refine ⟨?_, ⟨_, rfl⟩, ?_⟩
  · intro b hb; cases hb
  intro ok r d' h
  cases ok with
  | false => cases h; exact True.intro
  | true =>
    have h : Except.ok _ = Except.ok _ := h
    obtain ⟨rfl, rfl⟩ := Prod.mk.inj (Except.ok.inj h)
    refine ⟨⟨?_, by unfold ValueDef; decide⟩, ⟨_, rfl⟩, ?_⟩
    · intro b hb; cases hb
    intro ok r d' h
    cases ok with
    | false => cases h; exact True.intro
    | true =>
      have h : Except.ok _ = Except.ok _ := h
      obtain ⟨rfl, rfl⟩ := Prod.mk.inj (Except.ok.inj h)
      refine ⟨trivial, ⟨_, rfl⟩, ?_⟩
      intro ok r d' h
      cases ok <;> (obtain ⟨rfl, rfl⟩ := Prod.mk.inj (Except.ok.inj h); exact ⟨trivial, ⟨_, rfl⟩, fun _ _ _ _ => trivial⟩)

/-- The document in the heap after the program, and the addresses in use before and after the deletion. -/
def demoProgram (h : Heap) : Option (Option HDoc × List Nat × List Nat) :=
  let used (h : Heap) := (List.range 12).filter (fun p => (h.mem p).isSome)
  match documentInit (some ⟨1, 1⟩) [([33, 0], [120, 0])] true true h with
  | .ok (some hd, h) =>
    match demoClient.run hd h with
    | .ok (hd, h) =>
      match documentDelete hd h with
      | .ok (_, h') => some (some hd, used h, used h')
      | .error _ => none
    | .error _ => none
  | .ok (none, h) => some (none, used h, used h)
  | .error _ => none

example : demoProgram (demoHeap 100) =
    some (some ⟨⟨some 1, 2⟩, some 2, ⟨some 3, 1⟩, true, true⟩, [0, 1, 2, 3, 4, 5, 6, 7, 8, 9], [0]) := by decide +kernel
/- Every single allocation fails: 0-4 during the initialization, the others in the calls. -/
example : ∀ k, k < 9 → (demoProgram (demoHeap k)).map (fun x => (x.1.isSome, x.2.2)) = some (decide (5 ≤ k), [0]) := by decide +kernel

end LibYaml
