import Verif.Proofs.DumperHeap
import Verif.Props.DocumentHeap

/-!
# C63: the dumper frees the document

Heaps, allocation outcomes, documents and emitters are arbitrary. An emitter is anything that takes over the events given to it (`Takes`): it may
free them at once or keep them, refuse them, and run out of memory. `owns t o`: in the state `t` it owns the blocks `o`.
-/

namespace LibYaml

open Spec

variable {τ : Type} {emit : HEvent → τ → HM (Bool × τ)} {owns : τ → Blocks → Prop} {f : EvData → τ → Bool × τ}

/-- The documents that may be dumped: all ids are ids of nodes, tags are C strings, the number of nodes is an `int`. -/
structure Dumps.Ok (d : Doc) : Prop where
  graph : GraphOk d.nodes
  tags : ∀ nd ∈ d.nodes, CText nd.tag
  int : d.nodes.length ≤ 2147483647

theorem goodDoc_trivial (d : Doc) : GoodDoc (fun _ => True) d := by
  refine ⟨trivial, trivial, trivial, trivial, fun _ => trivial, trivial, trivial, fun nd _ a => ?_⟩
  split <;> simp

/-- Besides the blocks of the emitter and of others (`h0`), the heap holds the document. One call of `yaml_emitter_dump` never runs into undefined
behaviour, whatever the allocations and the emitter do. Afterwards the heap holds nothing but the blocks of the emitter and of others: every block
of the document was freed once or given to the emitter, also if the call failed; the table of anchors is gone. With memory, the call does what
`dump` does on values. -/
theorem C63_dump (ht : Takes emit owns f) (d : Doc) (hd : HDoc) (b o : Blocks) (s : HDumper τ) (fuel : Nat) (h0 h : Heap) (hf : h.Fresh) (hdoc : DocAt d hd b)
    (hok : Dumps.Ok d) (hfuel : d.nodes.length < fuel) (hs : s.anchors = none) (hl : s.last = 0) (ho : owns s.out o) (hb : Adds h0 (b ++ o) h) :
    ∃ ok s' h' o', hDump emit fuel hd s h = .ok ((ok, s'), h') ∧ h'.Fresh ∧ owns s'.out o' ∧ Adds h0 o' h' ∧ s'.anchors = none ∧ s'.last = 0 ∧
      ((∀ k, h.ok k = true) → dump (fun e t => f e.data t) fuel d s.view = .ok (ok, s'.view)) := by
  have e : Ext (∀ k, h.ok k = true) h0.mem (b ++ (o ++ [])) h := by
    rw [List.append_nil]
    exact ⟨hb.cells, hb.distinct, hb.unused, hf, fun x => x⟩
  obtain ⟨r, h', hr, v', o', ⟨rfl, k1⟩, k2, k3, k4, k5⟩ :=
    hw_out (hw_dump ht.handles (goodDoc_trivial d) hdoc hok.graph hok.int hfuel hok.tags hs hl ⟨rfl, ho⟩ e)
  rw [List.append_nil] at k2
  exact ⟨r.1, r.2, h', o', hr, k2.fresh, k1, ⟨k2.cells, k2.keys, k2.sep⟩, k3, k4, fun hA => (k5 (.inr hA)).elim id fun h => (h.2 hA).elim⟩

/-- Dump documents one after the other, whether or not a call fails. -/
def hDumpAll (emit : HEvent → τ → HM (Bool × τ)) (fuel : Nat) : List HDoc → HDumper τ → HM (HDumper τ)
  | [], s => return s
  | d :: ds, s => do
    let (_, s) ← hDump emit fuel d s
    hDumpAll emit fuel ds s

/-- Documents in the heap. -/
def DocsAt : List Doc → List HDoc → Blocks → Prop
  | [], hds, bs => hds = [] ∧ bs = []
  | d :: ds, hds, bs => ∃ hd hds' x rest, hds = hd :: hds' ∧ DocAt d hd x ∧ DocsAt ds hds' rest ∧ bs = x ++ rest

/-- Whole histories: after any number of dumps, the heap holds nothing but the blocks of the emitter and of others. -/
theorem C63_history (ht : Takes emit owns f) (ds : List Doc) (hds : List HDoc) (b o : Blocks) (s : HDumper τ) (fuel : Nat) (h0 h : Heap) (hf : h.Fresh)
    (hdoc : DocsAt ds hds b) (hok : ∀ d ∈ ds, Dumps.Ok d ∧ d.nodes.length < fuel) (hs : s.anchors = none) (hl : s.last = 0) (ho : owns s.out o)
    (hb : Adds h0 (b ++ o) h) :
    ∃ s' h' o', hDumpAll emit fuel hds s h = .ok (s', h') ∧ owns s'.out o' ∧ Adds h0 o' h' ∧ s'.anchors = none := by
  have key : ∀ (ds : List Doc) (hds : List HDoc) (b o : Blocks) (s : HDumper τ) (h : Heap), DocsAt ds hds b → (∀ d ∈ ds, Dumps.Ok d ∧ d.nodes.length < fuel) →
      s.anchors = none → s.last = 0 → owns s.out o → Ext False h0.mem (b ++ o) h →
      hw (hDumpAll emit fuel hds s) (fun s' h' => ∃ o', owns s'.out o' ∧ Ext False h0.mem o' h' ∧ s'.anchors = none) h := by
    intro ds
    induction ds with
    | nil =>
      intro hds b o s h hdoc _ hs _ ho e
      obtain ⟨rfl, rfl⟩ := hdoc
      exact ⟨o, ho, e, hs⟩
    | cons d ds ih =>
      intro hds b o s h hdoc hok hs hl ho e
      obtain ⟨hd, hds', x, rest, rfl, k1, k2, rfl⟩ := hdoc
      obtain ⟨j1, j2⟩ := hok d (.head _)
      unfold hDumpAll
      rw [hw_bind]
      refine hw_mono (hw_dump (bs := rest) (b := x) (o := o) ht.handles (goodDoc_trivial d) k1 j1.graph j1.int j2 j1.tags hs hl ⟨rfl, ho⟩ (e.perm (by blocks))) ?_
      rintro ⟨ok, s1⟩ h1 ⟨_, o1, ⟨rfl, p1⟩, p2, p3, p4, _⟩
      exact ih hds' rest o1 s1 h1 k2 (fun d hd => hok d (.tail _ hd)) p3 p4 p1 (p2.perm (by blocks))
  obtain ⟨s', h', hr, o', k1, k2, k3⟩ := hw_out (key ds hds b o s h hdoc hok hs hl ho ⟨hb.cells, hb.distinct, hb.unused, hf, fun x => x.elim⟩)
  exact ⟨s', h', o', hr, k1, ⟨k2.cells, k2.keys, k2.sep⟩, k3⟩

/-! ### An emitter -/

/-- An emitter that deletes every event at once and accepts `n` of them. -/
def dropEmit (e : HEvent) (n : Nat) : HM (Bool × Nat) := do
  eventDelete e
  return (n != 0, n - 1)

theorem dropEmit_takes : Takes dropEmit (fun _ o => o = []) (fun _ n => (n != 0, n - 1)) := by
  intro A base bs h ev he x t o hev ho e
  subst ho
  unfold dropEmit
  rw [hw_bind]
  exact hw_dropEvent e hev (fun h' e' => ⟨[], rfl, e', fun _ => rfl⟩)

/-! ### A run -/

/-- A mapping whose value is the mapping itself, with a version and a tag directive: the results of the calls and the blocks in use at the end. -/
def demoDump (accepted : Nat) (h : Heap) : Option (Bool × List Nat) :=
  let used (h : Heap) := (List.range 30).filter (fun p => (h.mem p).isSome)
  match documentInit (some ⟨1, 1⟩) [([33, 0], [120, 0])] true true h with
  | .ok (some hd, h) =>
    match hAddColl (Int × Int) mapTag (fun t s => .mapping t s .block) none hd h with
    | .ok ((_, hd), h) =>
      match hAddScalar none [97] 1 .plain hd h with
      | .ok ((_, hd), h) =>
        match hAppendPair 1 2 1 hd h with
        | .ok ((_, hd), h) =>
          match hDump dropEmit 3 hd { out := accepted } h with
          | .ok ((ok, _), h) => some (ok, used h)
          | .error _ => none
        | .error _ => none
      | .error _ => none
    | .error _ => none
  | .ok (none, h) => some (false, used h)
  | .error _ => none

/- The emitter refuses the event with number `k`; there are seven. -/
example : ∀ k, k < 7 → demoDump k (demoHeap 100) = some (false, [0]) := by decide +kernel
example : demoDump 7 (demoHeap 100) = some (true, [0]) := by decide +kernel
/- No memory for the table, the anchor of the mapping, the anchor of the alias. -/
example : ∀ k, k < 3 → demoDump 7 (demoHeap (9 + k)) = some (false, [0]) := by decide +kernel

/-- The document of these runs. -/
def demoDumped : Doc :=
  { nodes := [{ tag := mapTag, data := .mapping [(2, 1)] .block }, { tag := strTag, data := .scalar [97] .plain }], version := some ⟨1, 1⟩,
    tags := [⟨[33], [120]⟩], startImplicit := true, endImplicit := true }

example : Dumps.Ok demoDumped := by
  refine ⟨?_, ?_, by decide⟩
  · unfold GraphOk demoDumped; decide
  · intro nd hnd
    simp only [demoDumped, List.mem_cons, List.not_mem_nil, or_false] at hnd
    rcases hnd with rfl | rfl <;> exact (by unfold CText; decide)

end LibYaml
