import Verif.Proofs.Reformat
import Verif.Props.LoadParse

/-!
# C68: parser and emitter at work on one heap

The program of tests/example-reformatter.c. Inputs, heaps, allocation outcomes, output handlers `W` and settings of the emitter are arbitrary.
`reformatted W vs s w` is what handing the outcomes `vs` of the parser to the emitter `s` does on values; `Starved` says that memory is lacking.
-/

namespace LibYaml

open Spec

variable {ρ σ ω : Type}

/-- With a clean source of tokens. -/
theorem reformat_core [SrcMem ρ] [SrcLink ρ σ] [Strict] (hstrict : Strict.strict) {H : HSrc ρ} {S : TokSrc σ} (hk : Link H S) (W : OutH ω) (w : ω) (s : Emitter)
    (hs : Fresh s) (maxLevel : Int) (fuel n : Nat) {src : σ} (hst : SrcStarts H src)
    {vs : List POut} {v : Parser σ} (hv : parseN (cutSrc S) maxLevel fuel n (Parser.init src) = .ok (vs, v)) (hend : Ends vs) (h : Heap) (hf : h.Fresh) :
    ∃ r h', reformat H W maxLevel fuel n s w h = .ok (r, h') ∧ h'.mem = h.mem ∧ (r = none → ¬ ∀ k, h.ok k = true) ∧
      ∀ x, r = some x → ReformatLog W (∀ k, h.ok k = true) v.error vs s w x := by
  refine hw_out (Q := fun r h' => h'.mem = h.mem ∧ (r = none → ¬ ∀ k, h.ok k = true) ∧
      ∀ x, r = some x → ReformatLog W (∀ k, h.ok k = true) v.error vs s w x) ?_
  unfold reformat
  rw [hw_bind]
  refine hw_parserInit hst (bs := []) (Ext.start hf (fun (x : ∀ k, h.ok k = true) => x)) (fun h' p e ha => ?_) (fun h' p b ho e => ?_)
  · dsimp only
    rw [if_neg (by simp), hw_pure]
    exact ⟨e.done, fun _ => ha, fun x hx => by cases hx⟩
  · dsimp only
    rw [if_pos rfl, hw_bind]
    refine hw_emitterInit (bs := b ++ []) e (fun h1 e1 ha => ?_) (fun h1 q c hq hval hw e1 => ?_)
    · simp only
      rw [hw_bind]
      refine hw_parserDelete hst.toSrcCloses ho.left e1 fun h2 e2 => ?_
      rw [hw_pure]
      exact ⟨e2.done, fun _ => ha, fun x hx => by cases hx⟩
    · simp only
      rw [hw_bind]
      obtain ⟨j1, j2⟩ := C66_settings hq hs
      refine hw_mono (hw_reformatLoop (W := W) (bs := []) hk hstrict (p := { st := p }) ⟨rfl, rfl, ho, .inr (init_einv src)⟩ j2 j1 (e1.perm (by blocks))
        hv hend) ?_
      rintro ⟨r, p1, q1⟩ h2 ⟨b', s', c', l1, l2, l3, l4⟩
      simp only at l1 l2 l4 ⊢
      rw [hw_bind]
      refine hw_parserDelete hst.toSrcCloses l1 l3 fun h3 e3 => ?_
      rw [hw_bind]
      refine hw_emitterDelete (y := []) (bs := []) l2 (.inl ⟨rfl, rfl⟩) e3 fun h4 e4 => ?_
      rw [hw_pure]
      refine ⟨e4.done, (fun hx => by cases hx), fun x hx => ?_⟩
      cases hx
      rw [hw] at l4
      exact l4

theorem mem_events {vs : List POut} (h : EvData.streamEnd ∈ events vs) : ∃ ev, .event ev ∈ vs ∧ ev.data = .streamEnd := by
  induction vs with
  | nil => cases h
  | cons x os ih =>
    cases x with
    | event ev =>
      rcases List.mem_cons.mp h with h | h
      · exact ⟨ev, .head _, h.symm⟩
      · obtain ⟨e, h1, h2⟩ := ih h
        exact ⟨e, .tail _ h1, h2⟩
    | failed =>
      obtain ⟨e, h1, h2⟩ := ih h
      exact ⟨e, .tail _ h1, h2⟩
    | noEvent =>
      obtain ⟨e, h1, h2⟩ := ih h
      exact ⟨e, .tail _ h1, h2⟩

/-- After `16 * bytes.length + 28` calls the outcomes tell how the stream ends. -/
theorem bytes_end (o : Oracle) (maxLevel : Int) (enc : Option Enc) (bytes : List UInt8) (hsize : bytes.length < maxFileSize) {f fuel n : Nat}
    (hf : bytes.length + 3 < f) (hfuel : 4 * bytes.length + 7 < fuel) (hn : 16 * bytes.length + 28 < n) :
    ∃ vs v, parseBytes o maxLevel f fuel enc bytes n = .ok (vs, v) ∧ Ends vs := by
  obtain ⟨vs, v, h1, _, _, _, _, h2⟩ := C56_parsing_is_total o maxLevel enc bytes hsize hf hfuel n
  refine ⟨vs, v, h1, (h2 hn).imp_right fun h => ?_⟩
  exact mem_events h

/-- C68. For every byte string, input handler, output handler and setting, and whatever the allocations do, the reformatter comes to an end without undefined
behaviour, and then the heap is as it was: events change hands without being copied, freed twice or lost, also if parser or emitter fail. What
it does is told by `ReformatLog`: the events are those of `parseBytes`, in this order, and each call of the emitter does what it does on values. -/
theorem C68_reformat (o : Oracle) (W : OutH ω) (w : ω) (s : Emitter) (hs : Fresh s) (maxLevel : Int) (enc : Option Enc) (bytes : List UInt8)
    (hsize : bytes.length < maxFileSize) (f fuel n : Nat) (hf : bytes.length + 3 < f) (hfuel : 4 * bytes.length + 7 < fuel) (hn : 16 * bytes.length + 28 < n)
    (h : Heap) (hh : h.Fresh) :
    ∃ r h' vs v, reformat (byteSrc o f enc bytes) W maxLevel fuel n s w h = .ok (r, h') ∧
      h'.mem = h.mem ∧ (r = none → ¬ ∀ k, h.ok k = true) ∧ parseBytes o maxLevel f fuel enc bytes n = .ok (vs, v) ∧
      ∀ x, r = some x → ReformatLog W (∀ k, h.ok k = true) v.error vs s w x := by
  obtain ⟨vs, v, hv, hend⟩ := bytes_end o maxLevel enc bytes hsize hf hfuel hn
  have hc := scanner_clean o enc bytes hsize hf
  let _ : Strict := ⟨True⟩
  let _ : SrcInv (Scanner × RS) := ⟨SrcReach (scannerSrc o f) ((scanStart enc bytes).scanner, (scanStart enc bytes).input)⟩
  obtain ⟨r, h', h1, h2, h3, h4⟩ := reformat_core trivial (mem_link (reach_keeps (clean_readable hc) (fun _ => hc)) _) W w s hs maxLevel fuel n
    (mem_starts SrcReach.refl) (parseN_clean hc hv) hend h hh
  exact ⟨r, h', vs, v, h1, h2, h3, hv, h4⟩

theorem ReformatLog.over [SrcMem ρ] {W : OutH ω} {A : Prop} {err : Option Fail} {os : List POut} {s : Emitter} {w : ω} {r : REnd × HPar ρ × ω}
    (h : ReformatLog W A err os s w r) : r.1 ≠ .running := by
  induction h with
  | next _ _ _ _ ih => exact ih
  | _ => simp

/-- What the reformatter puts out, and how it ends, depends only on the input, the handlers and the settings, unless memory is lacking. -/
theorem C68_output (o : Oracle) (W : OutH ω) (w : ω) (s : Emitter) (hs : Fresh s) (maxLevel : Int) (enc : Option Enc) (bytes : List UInt8)
    (hsize : bytes.length < maxFileSize) (f fuel n : Nat) (hf : bytes.length + 3 < f) (hfuel : 4 * bytes.length + 7 < fuel) (hn : 16 * bytes.length + 28 < n)
    (h : Heap) (hh : h.Fresh) {h' : Heap} {e : REnd} {p : HPar (MemSrc (Scanner × RS))} {w' : ω}
    (hr : reformat (byteSrc o f enc bytes) W maxLevel fuel n s w h = .ok (some (e, p, w'), h')) :
    Starved (e, p, w') ∨ ∃ vs v, parseBytes o maxLevel f fuel enc bytes n = .ok (vs, v) ∧ reformatted W vs s w = (e, w') ∧ e ≠ .running ∧
      (e = .parser → p.error = v.error) ∧ (e ≠ .parser → p.error = none) := by
  obtain ⟨r, h1, vs, v, k1, _, _, k2, k3⟩ := C68_reformat o W w s hs maxLevel enc bytes hsize f fuel n hf hfuel hn h hh
  rw [hr] at k1
  cases k1
  have hl := k3 _ rfl
  rcases hl.same with hx | ⟨hx, hy⟩
  · exact .inl hx
  · refine .inr ⟨vs, v, k2, hx, ?_, by rintro rfl; exact hy, by cases e <;> simp_all⟩
    exact hl.over

/-! ### Runs -/

/-- How a run ends. -/
inductive DemoEnd
  | done | parser | refused | writer | memory | running
  deriving DecidableEq

def DemoEnd.of : REnd → DemoEnd
  | .done => .done
  | .parser => .parser
  | .emitter (.emitter _) => .refused
  | .emitter .writer => .writer
  | .emitter .memory => .memory
  | .running => .running

/-- The end, the error of the parser, the output, and the blocks in use at the end. At most `k` operations of the output handler succeed. -/
def demoReformat (bytes : List UInt8) (k : Nat) (h : Heap) : Option (Option (DemoEnd × Bool × String) × List Nat) :=
  match reformat (byteSrc (fun _ => some 1) (bytes.length + 4) none bytes) demoOut 1000 (4 * bytes.length + 8) (16 * bytes.length + 29) {} ([], k) h with
  | .ok (r, h) => some (r.map fun r => (.of r.1, r.2.1.error.isSome, String.ofList (r.2.2.1.map Char.ofNat)), (List.range 120).filter fun p => (h.mem p).isSome)
  | .error _ => none

/-- `- &a x` `- *a` -/
def demoInput : List UInt8 := [45, 32, 38, 97, 32, 120, 10, 45, 32, 42, 97, 10]
/-- `- a` `*b ]` -/
def demoBroken : List UInt8 := [45, 32, 97, 10, 42, 98, 32, 93]

/- With memory and output. -/
example : demoReformat demoInput 1000 (demoHeap 1000) = some (some (.done, false, "- &a x\n- *a\n"), [0]) := by decide +kernel
/- Whichever allocation fails: the heap is as it was. Parser and emitter make fourteen while they are initialized. -/
example : ∀ k, k < 24 → (demoReformat demoInput 1000 (demoHeap k)).map Prod.snd = some [0] := by decide +kernel
example : demoReformat demoInput 1000 (demoHeap 13) = some (none, [0]) := by decide +kernel
example : demoReformat demoInput 1000 (demoHeap 18) = some (some (.parser, true, ""), [0]) := by decide +kernel
example : demoReformat demoInput 1000 (demoHeap 22) = some (some (.memory, false, ""), [0]) := by decide +kernel
/- Whichever output operation fails: the same. -/
example : ∀ k, k < 15 → (demoReformat demoInput k (demoHeap 1000)).map Prod.snd = some [0] := by decide +kernel
example : demoReformat demoInput 9 (demoHeap 1000) = some (some (.writer, false, "- &a x\n- "), [0]) := by decide +kernel
/- Input with an error: the parser fails while the emitter holds events. -/
example : demoReformat demoBroken 1000 (demoHeap 1000) = some (some (.parser, true, ""), [0]) := by decide +kernel

end LibYaml
