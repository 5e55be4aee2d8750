import Verif.Proofs.DumpSession
import Verif.Props.EmitterHeap
import Verif.Props.LoadParse

/-!
# C67: dumper and emitter on one heap

The emitter that the dumper calls is the emitter on the heap. Documents, heaps, allocation outcomes, output handlers `W` and settings are arbitrary.
`emitTo (outEnv W)` is the emitter on values, in an environment where only the output can fail.
-/

namespace LibYaml

open Spec

variable {ω : Type}

/-- One call of `yaml_emitter_dump` with an emitter that has not failed (`Sound`). The heap holds the document (`b`), the emitter (`o`), and blocks of
others (`h0`). The call never runs into undefined behaviour. Afterwards all blocks but those of others belong to the emitter. The emitter and the output
are those of `dump` on values; or the call failed for want of memory, because an allocation failed or a stack is at its limit. -/
theorem C67_dump (W : OutH ω) (d : Doc) (hd : HDoc) (b o : Blocks) (s : HDumper (HEm ω)) (v : Emitter) (fuel : Nat) (h0 h : Heap) (hf : h.Fresh)
    (hdoc : DocAt d hd b) (hok : Dumps.Ok d) (hleg : LegibleDoc d) (hfuel : d.nodes.length < fuel) (hs : s.anchors = none) (hl : s.last = 0)
    (ho : EOwn s.out v o) (hv : Sound v) (hb : Adds h0 (b ++ o) h) :
    ∃ ok s' h' v' o', hDump (emitEvent W) fuel hd s h = .ok ((ok, s'), h') ∧ h'.Fresh ∧ EOwn s'.out v' o' ∧ Adds h0 o' h' ∧ s'.anchors = none ∧ s'.last = 0 ∧
      (ok = true → Sound v') ∧
      (dump (emitTo (outEnv W)) fuel d (s.see (v, s.out.world)) = .ok (ok, s'.see (v', s'.out.world)) ∨
        (ok = false ∧ ((∀ k, h.ok k = true) → OverStack v'))) := by
  have e : Ext (∀ k, h.ok k = true) h0.mem (b ++ (o ++ [])) h := by
    rw [List.append_nil]
    exact ⟨hb.cells, hb.distinct, hb.unused, hf, fun x => x⟩
  obtain ⟨r, h', hr, ⟨v', w'⟩, o', ⟨k1, k1', k1''⟩, k2, k3, k4, k5⟩ :=
    hw_out (hw_dump (emit_handles W) (legible_good hleg) hdoc hok.graph hok.int hfuel hok.tags hs hl (v := (v, s.out.world)) ⟨ho, rfl, fun _ => hv⟩ e)
  rw [List.append_nil] at k2
  replace k1' : r.2.out.world = w' := k1'
  subst k1'
  exact ⟨r.1, r.2, h', v', o', hr, k2.fresh, k1, ⟨k2.cells, k2.keys, k2.sep⟩, k3, k4, k1'', k5 (.inl trivial)⟩

/-- A stack of the emitter cannot grow further. -/
def FullEm (p : HEm ω) : Prop := stackLimit EState p.states.top ∨ stackLimit Int p.indents.top ∨ stackLimit (Ptr × Ptr) p.tags.top

theorem over_full {p : HEm ω} {s : Emitter} {b : Blocks} (h : EOwn p s b) (ho : OverStack s) : FullEm p := by
  obtain ⟨q, T, x1, x2, x3, x4, x5, x6, _, _, _, _, k5, _, k7, k8, _⟩ := h
  obtain ⟨a1, n1, k5, _⟩ := k5
  obtain ⟨a3, n3, k7, _⟩ := k7
  obtain ⟨a4, n4, vs, k8, _, k9, _⟩ := k8
  have hlen : vs.length = s.tags.length := by rw [dirsAt_length k9, List.length_map]
  unfold FullEm
  rw [k5, k7, k8]
  unfold OverStack at ho
  rw [← hlen] at ho
  exact ho

/-- Whole histories: initialize an emitter, open the stream, dump documents, close the stream, stopping at the first failure, and delete the emitter and
the documents not handed over. Whatever the allocations and the output handler do, there is no undefined behaviour, and in the end the documents are
gone and the heap is otherwise as it was (`h0`). If all calls succeed, they did and wrote what they do on values. If all allocations succeed and no stack is at
its limit, the calls fail only if they do on values. -/
theorem C67_history (W : OutH ω) (w : ω) (t : Emitter) (ht : Fresh t) (fuel : Nat) (ds : List Doc) (hds : List HDoc) (b : Blocks) (h0 h : Heap) (hf : h.Fresh)
    (hd : DocsAt ds hds b) (hok : ∀ d ∈ ds, Dumps.Ok d ∧ LegibleDoc d ∧ d.nodes.length < fuel) (hb : Adds h0 b h) :
    ∃ r h', dumpSession W w t fuel hds h = .ok (r, h') ∧ h'.mem = h0.mem ∧ (r = none → ¬ ∀ k, h.ok k = true) ∧
      (∀ s, r = some (true, s) → ∃ bs z, runCalls (emitTo (outEnv W)) fuel (.opens :: (ds.map .dumps ++ [.closes])) { out := (t, w) } = .ok (bs, z) ∧
        (∀ b ∈ bs, b = true) ∧ z.out.2 = s.out.world) ∧
      (∀ s, r = some (false, s) → (∀ k, h.ok k = true) → FullEm s.out ∨
        ∀ bs z, runCalls (emitTo (outEnv W)) fuel (.opens :: (ds.map .dumps ++ [.closes])) { out := (t, w) } = .ok (bs, z) → false ∈ bs) := by
  have e : Ext (∀ k, h.ok k = true) h0.mem (b ++ []) h := by
    rw [List.append_nil]
    exact ⟨hb.cells, hb.distinct, hb.unused, hf, fun x => x⟩
  refine hw_out ?_
  unfold dumpSession
  rw [hw_bind]
  refine hw_emitterInit (bs := b ++ []) e (fun h' e ha => ?_) (fun h' p o ho hv hw' e => ?_)
  · simp only
    rw [hw_bind]
    refine hw_dropDocs hd e fun h2 e2 => ?_
    rw [hw_pure]
    exact ⟨e2.done, fun _ => ha, (fun s hx => by cases hx), fun s hx => by cases hx⟩
  · simp only
    rw [hw_bind]
    obtain ⟨j1, j2⟩ := C66_settings ho ht
    refine hw_mono (hw_dumpStream (W := W) (bs := []) (o := o) (b := b) (s := { out := { p with val := t } }) (v := (t, w)) hd hok rfl rfl rfl ⟨j1, hw', fun _ => j2⟩
      (e.perm (by blocks))) ?_
    rintro ⟨ok, s1⟩ h1 ⟨⟨v1, w1⟩, o1, ⟨p1, p1', _⟩, p2, p3, p4, _, p6⟩
    simp only at p1 p1' p3 p6 ⊢
    subst p1'
    rw [hw_bind]
    refine hw_emitterDelete (y := []) (bs := []) p1 (.inl ⟨p3, rfl⟩) p2 fun h2 e2 => ?_
    rw [hw_pure]
    refine ⟨e2.done, (fun hx => by cases hx), ?_, ?_⟩
    · rintro s ⟨⟩
      obtain ⟨bs, k1, k2⟩ := p6.yes rfl
      exact ⟨bs, _, k1, k2, rfl⟩
    · rintro s ⟨⟩ hA
      exact (p6.no hA rfl).imp_left fun k => over_full p1 k

/-! ### There and back -/

/-- The writer as output handler of the emitter; `h` is the client's write handler. Undefined behaviour in the writer is kept as such. -/
def writerOut {σ : Type} (h : Handler σ) : OutH (Except Fail (WS σ) × Unit) := fun op w => writerEnv h (fun m => (true, m)) (.out op) w

theorem writerOut_env {σ : Type} (h : Handler σ) : outEnv (writerOut h) = writerEnv h (fun (m : Unit) => (true, m)) := by
  funext op w
  cases op with
  | alloc => rfl
  | out op => rfl

/-- Dump documents with the emitter and the writer on the heap, to any write handler, in any encoding, with any settings, whatever the allocations do. If
all calls succeed, the writer is in a defined state, and the bytes that the handler received, read again in pieces of any size, give the same documents up
to presentation; the conditions on the documents are those of C61. -/
theorem C67_dump_then_load {σ : Type} (hd : Handler σ) (I : σ → Prop) (hI : Safe hd I) (x : σ) (hx : I x) (t : Emitter) (ht : Fresh t) (fuel0 : Nat)
    (ds : List Doc) (hds : List HDoc) (b : Blocks) (h0 h : Heap) (hf : h.Fresh) (hdocs : DocsAt ds hds b) (hleg : ∀ d ∈ ds, LegibleDoc d ∧ d.nodes.length < fuel0)
    (hdump : ∀ d ∈ ds, Dumpable d) (hfirst : t.canonical = false → ∀ d, ds.head? = some d → ¬ Invisible d) (hb : Adds h0 b h)
    {s : HDumper (HEm (Except Fail (WS σ) × Unit))} {h' : Heap}
    (hrun : dumpSession (writerOut hd) (.ok (WS.init (t.encoding.getD .utf8) x), ()) t fuel0 hds h = .ok (some (true, s), h')) :
    h'.mem = h0.mem ∧ ∃ st, s.out.world.1 = .ok st ∧
      ∀ (room : Nat → Bool) (o : Oracle) (n : Int) (f fuel m : Nat), NoFail o → st.trace.flatten.length < maxInt →
        st.trace.flatten.length + 3 < f → 4 * st.trace.flatten.length + 7 < fuel → 16 * st.trace.flatten.length + 28 < m →
        2 ≤ n → n ≤ maxInt → (∀ es, DumpedDocs ds es → (∀ k, Deep k es → (k : Int) < n) ∧ ∀ k, k < es.length → room k = true) →
        ∃ ds' p, loadBytes room o n f fuel m none st.trace.flatten (ds.length + 1) = .ok (ds'.map .doc ++ [.doc Doc.empty], p) ∧
          List.Forall₂ SameDoc ds ds' := by
  have hok : ∀ d ∈ ds, Dumps.Ok d ∧ LegibleDoc d ∧ d.nodes.length < fuel0 := fun d hd' =>
    ⟨⟨(hdump d hd').graph, (hleg d hd').1.tags, (hdump d hd').small⟩, hleg d hd'⟩
  obtain ⟨r, h2, k1, k2, _, k3, _⟩ := C67_history (writerOut hd) (.ok (WS.init (t.encoding.getD .utf8) x), ()) t ht fuel0 ds hds b h0 h hf hdocs hok hb
  rw [hrun] at k1
  cases k1
  refine ⟨k2, ?_⟩
  obtain ⟨bs, z, j1, j2, j3⟩ := k3 s rfl
  rw [writerOut_env] at j1
  have := C61_dump_then_load ht hdump hfirst (fun d hd' => (hleg d hd').2) hd I hI x hx (fun (m : Unit) => (true, m)) () j1 j2
  rw [j3] at this
  exact this

/-- … and they succeed if the write handler and the allocations do, unless a stack of the emitter is at its limit. -/
theorem C67_dump_succeeds {σ : Type} (hd : Handler σ) (hh : ∀ s b, ∃ s', hd s b = .ok (true, s')) (x : σ) (t : Emitter) (ht : Fresh t) (fuel0 : Nat)
    (ds : List Doc) (hds : List HDoc) (b : Blocks) (h0 h : Heap) (hf : h.Fresh) (hA : ∀ k, h.ok k = true) (hdocs : DocsAt ds hds b)
    (hleg : ∀ d ∈ ds, LegibleDoc d ∧ d.nodes.length < fuel0)
    (hdump : ∀ d ∈ ds, Dumpable d) (hfirst : t.canonical = false → ∀ d, ds.head? = some d → ¬ Invisible d) (hb : Adds h0 b h) :
    ∃ ok s h', dumpSession (writerOut hd) (.ok (WS.init (t.encoding.getD .utf8) x), ()) t fuel0 hds h = .ok (some (ok, s), h') ∧ (ok = true ∨ FullEm s.out) := by
  have hok : ∀ d ∈ ds, Dumps.Ok d ∧ LegibleDoc d ∧ d.nodes.length < fuel0 := fun d hd' =>
    ⟨⟨(hdump d hd').graph, (hleg d hd').1.tags, (hdump d hd').small⟩, hleg d hd'⟩
  obtain ⟨r, h2, k1, k2, k0, _, k4⟩ := C67_history (writerOut hd) (.ok (WS.init (t.encoding.getD .utf8) x), ()) t ht fuel0 ds hds b h0 h hf hdocs hok hb
  obtain ⟨bs, z, j1, j2⟩ := C61_dump_succeeds ht hdump hfirst (fun d hd' => (hleg d hd').2) hd hh x (fun (m : Unit) => (true, m)) (fun _ => rfl) ()
  rw [← writerOut_env] at j1
  cases r with
  | none => exact absurd hA (k0 rfl)
  | some r =>
    obtain ⟨ok, s⟩ := r
    refine ⟨ok, s, h2, k1, ?_⟩
    cases ok with
    | true => exact .inl rfl
    | false =>
      rcases k4 s rfl hA with k | k
      · exact .inr k
      · exact absurd (j2 false (k bs z j1)) (by simp)

theorem docsOf_map (ds : List Doc) (os : List LOut) : docsOf (ds.map .doc ++ os) = ds ++ docsOf os := by
  induction ds with
  | nil => rfl
  | cons d ds ih => rw [List.map_cons, List.cons_append, docsOf, ih]; rfl

/-- The loader on the heap reads them back: after any calls that succeed, the heap holds, besides the parser object, exactly the same documents up to
presentation, and the empty document of the end of the stream. -/
theorem C67_there_and_back {σ : Type} (hd : Handler σ) (I : σ → Prop) (hI : Safe hd I) (x : σ) (hx : I x) (t : Emitter) (ht : Fresh t) (fuel0 : Nat)
    (ds : List Doc) (hds : List HDoc) (b : Blocks) (h0 h : Heap) (hf : h.Fresh) (hdocs : DocsAt ds hds b) (hleg : ∀ d ∈ ds, LegibleDoc d ∧ d.nodes.length < fuel0)
    (hdump : ∀ d ∈ ds, Dumpable d) (hfirst : t.canonical = false → ∀ d, ds.head? = some d → ¬ Invisible d) (hb : Adds h0 b h)
    {s : HDumper (HEm (Except Fail (WS σ) × Unit))} {h' : Heap}
    (hrun : dumpSession (writerOut hd) (.ok (WS.init (t.encoding.getD .utf8) x), ()) t fuel0 hds h = .ok (some (true, s), h')) :
    ∃ st, s.out.world.1 = .ok st ∧
      ∀ (o : Oracle) (n : Int) (f fuel m : Nat), NoFail o → st.trace.flatten.length < maxInt →
        st.trace.flatten.length + 3 < f → 4 * st.trace.flatten.length + 7 < fuel → 16 * st.trace.flatten.length + 28 < m →
        2 ≤ n → n ≤ maxInt → (∀ es, DumpedDocs ds es → ∀ k, Deep k es → (k : Int) < n) →
        ∀ (g1 g : Heap) (p : HPS (MemSrc (Scanner × RS))) (pb : Blocks), g.Fresh →
          Owns p { src := ((scanStart none st.trace.flatten).scanner, (scanStart none st.trace.flatten).input) } pb → Adds g1 pb g →
          ∃ hds' ok p' g' ds' y leak pb', lLoads (byteSrc o f none st.trace.flatten) n fuel m (ds.length + 1) { par := { st := p } } g = .ok ((hds', ok, p'), g') ∧
            Left p'.par.st pb' ∧ Lost leak ∧ Adds g1 (y ++ (leak ++ pb')) g' ∧ LoadedAt ds' hds' y ∧
            (ok = true → leak = [] ∧ ∃ ds1, ds' = ds1 ++ [Doc.empty] ∧ List.Forall₂ SameDoc ds ds1) ∧
            ((∀ k, g.ok k = true) → ok = true ∨ AtLimit (2 * m) p'.par.st) := by
  obtain ⟨_, st, k1, k2⟩ := C67_dump_then_load hd I hI x hx t ht fuel0 ds hds b h0 h hf hdocs hleg hdump hfirst hb hrun
  refine ⟨st, k1, ?_⟩
  intro o n f fuel m a1 a2 a3 a4 a5 a6 a7 a8 g1 g p pb hg hown hadds
  obtain ⟨ds', q, j1, j2⟩ := k2 roomy o n f fuel m a1 a2 a3 a4 a5 a6 a7 (fun es hes => ⟨a8 es hes, fun _ _ => rfl⟩)
  have hsize : st.trace.flatten.length < maxFileSize := Nat.lt_trans a2 (by decide)
  have hC := scanner_clean o none st.trace.flatten hsize a3
  obtain ⟨hds', ok, p', g', ds2, y, leak, pb', m1, _, m3, m4, m5, m6, m7, m8, m9⟩ :=
    C65_loads n fuel m (ds.length + 1) (ds.length + 1) _ hC j1 (Nat.le_refl _) (.inl rfl) g1 g hg p pb hown hadds
  have hdo : docsOf (ds'.map .doc ++ [.doc Doc.empty]) = ds' ++ [Doc.empty] := docsOf_map ds' _
  have hnf : LOut.failed ∉ ds'.map .doc ++ [.doc Doc.empty] := by simp
  refine ⟨hds', ok, p', g', ds2, y, leak, pb', m1, m5, m6, m7, m4, fun hok => ?_, fun hA => ?_⟩
  · obtain ⟨i1, _, i3⟩ := m8 hok
    exact ⟨i1, ds', by rw [i3, hdo], j2⟩
  · rcases m9 hA with hl | ⟨_, _, i3⟩
    · exact .inr hl
    · cases ok with
      | true => exact .inl rfl
      | false => exact absurd (i3 rfl) hnf

/-! ### A run -/

/-- The document of `demoDumped`, a mapping whose value is the mapping itself, built by the document API and dumped: whether the dump succeeded, the output, and
the blocks in use at the end. The output operation with number `n` fails. -/
def demoDumpRun (n : Nat) (h : Heap) : Option (Bool × List Nat × List Nat) :=
  let used (h : Heap) := (List.range 60).filter (fun p => (h.mem p).isSome)
  match documentInit (some ⟨1, 1⟩) [([33, 0], [120, 0])] true true h with
  | .ok (some hd, h) =>
    match hAddColl (Int × Int) mapTag (fun t s => .mapping t s .block) none hd h with
    | .ok ((_, hd), h) =>
      match hAddScalar none [97] 1 .plain hd h with
      | .ok ((_, hd), h) =>
        match hAppendPair 1 2 1 hd h with
        | .ok ((_, hd), h) =>
          match dumpSession demoOut ([], n) {} 3 [hd] h with
          | .ok (some (ok, s), h) => some (ok, s.out.world.1, used h)
          | .ok (none, h) => some (false, [], used h)
          | .error _ => none
        | .error _ => none
      | .error _ => none
    | .error _ => none
  | .ok (none, h) => some (false, [], used h)
  | .error _ => none

example : demoDumpRun 1000 (demoHeap 100) = some (true, "%YAML 1.1\n%TAG ! x\n--- &id001\na: *id001\n".toList.map Char.toNat, [0]) := by decide +kernel
/- Whichever allocation fails during the dump: the heap is as it was. -/
example : ∀ k, k < 32 → 9 ≤ k → (demoDumpRun 1000 (demoHeap k)).map (fun r => r.2.2) = some [0] := by decide +kernel
/- Whichever output operation fails: the same. -/
example : ∀ k, k < 40 → (demoDumpRun k (demoHeap 100)).map (fun r => r.2.2) = some [0] := by decide +kernel

example : LegibleDoc demoDumped := by
  refine ⟨?_, ?_, ?_⟩
  · intro t ht
    simp only [demoDumped, List.mem_cons, List.not_mem_nil, or_false] at ht
    subst ht
    exact ⟨by unfold CText; decide, by unfold CText; decide⟩
  · intro nd hnd
    simp only [demoDumped, List.mem_cons, List.not_mem_nil, or_false] at hnd
    rcases hnd with rfl | rfl <;> exact (by unfold CText; decide)
  · intro nd hnd v st hd
    simp only [demoDumped, List.mem_cons, List.not_mem_nil, or_false] at hnd
    rcases hnd with rfl | rfl
    · cases hd
    · injection hd with h1 _
      subst h1
      decide

end LibYaml
