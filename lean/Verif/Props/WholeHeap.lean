import Verif.Props.ScannerHeapFetch
import Verif.Props.Convert

/-!
# C73: scanner, parser, loader, emitter and dumper on one heap

C65, C68 and C70 with the scanner on the heap (`scanSrc`, `Model/ScannerHeapFetch.lean`) in place of one whose tokens come from nowhere: all strings of tokens,
the queue of tokens and the stacks of indentation levels and simple keys are blocks of the same heap, and every allocation that the scanner makes may fail,
too. Inputs, read handlers, heaps, allocation outcomes, output handlers, settings of the emitter, and numbers of calls are arbitrary. The programs are
compared with those on values (`parseBytes`, `loadBytes`, `reformatted`, `converted`).
-/

namespace LibYaml

open Spec

variable {ρ σ ω : Type}

/-- Initialize a parser and call it `n` times. -/
def parseOpen (H : HSrc ρ) (maxLevel : Int) (fuel n : Nat) : HM (Option (List HOut × HPar ρ)) := do
  let (ok, p) ← hParserInit H
  if ok then do
    let (os, p) ← hParseN H maxLevel fuel n { st := p }
    return some (os, p)
  else return none

/-- Initialize a parser and load `k` documents. -/
def loadOpen (H : HSrc ρ) (maxLevel : Int) (fuel m k : Nat) : HM (Option (List HDoc × Bool × HLPar ρ)) := do
  let (ok, p) ← hParserInit H
  if ok then do
    let (ds, ok, p) ← lLoads H maxLevel fuel m k { par := { st := p } }
    return some (ds, ok, p)
  else return none

section
variable (o : Oracle) (maxLevel : Int) (enc : Option Enc) (bytes : List UInt8) (hsize : bytes.length < maxFileSize) (f fuel : Nat) (hf : bytes.length + 3 < f)

/-- States of the scanner that a run over these bytes leads to. -/
abbrev scanReach : SrcInv (Scanner × RS) := ⟨SrcReach (scannerSrc o f) ((scanStart enc bytes).scanner, (scanStart enc bytes).input)⟩

include hsize hf in
theorem scan_bytes_link : letI : Strict := ⟨True⟩; letI := scanReach o enc bytes f; Link (scanSrc o f enc bytes) (scannerSrc o f) := by
  have hc := scanner_clean o enc bytes hsize hf
  let _ : Strict := ⟨True⟩
  let _ := scanReach o enc bytes f
  exact scan_link (reach_keeps (clean_readable hc) (fun _ => hc))

theorem scan_bytes_starts : letI := scanReach o enc bytes f;
    SrcStarts (scanSrc o f enc bytes) ((scanStart enc bytes).scanner, (scanStart enc bytes).input) := by
  let _ := scanReach o enc bytes f
  exact scan_starts SrcReach.refl

include hsize hf

/-- **C73, events.** Initializing a parser and calling it is defined, whatever the allocations do. Without a parser the heap is as before and an
allocation failed. Otherwise the events in the heap are exactly those of `parseBytes`, up to the first failure; the new blocks are those of the events (`x`)
and those of the parser with its scanner (`b`); and the calls do what they do on values unless memory is lacking. -/
theorem C73_events (hfuel : 4 * bytes.length + 7 < fuel) (n : Nat) (h : Heap) (hh : h.Fresh) :
    ∃ r h', parseOpen (scanSrc o f enc bytes) maxLevel fuel n h = .ok (r, h') ∧ h'.Fresh ∧
      match r with
      | none => h'.mem = h.mem ∧ ¬ ∀ k, h.ok k = true
      | some (os, p) => ∃ vs q x b, parseBytes o maxLevel f fuel enc bytes n = .ok (vs, q) ∧ Follows Exactly os vs x ∧ Left p.st b ∧ Adds h (x ++ b) h' ∧
          ((os.map HOut.kind = vs.map POut.kind ∧ p.error = q.error) ∨ (p.error = some .memory ∧ ((∀ k, h.ok k = true) → Full p.st))) := by
  obtain ⟨vs, q, hv, _⟩ := C56_parsing_is_total o maxLevel enc bytes hsize hf hfuel n
  have hc := scanner_clean o enc bytes hsize hf
  let _ : Strict := ⟨True⟩
  let _ := scanReach o enc bytes f
  refine hw_out (Q := fun (r : Option (List HOut × HPar HScan)) (h' : Heap) => h'.Fresh ∧ match r with
      | none => h'.mem = h.mem ∧ ¬ ∀ k, h.ok k = true
      | some (os, p) => ∃ vs q x b, parseBytes o maxLevel f fuel enc bytes n = .ok (vs, q) ∧ Follows Exactly os vs x ∧ Left p.st b ∧ Adds h (x ++ b) h' ∧
          ((os.map HOut.kind = vs.map POut.kind ∧ p.error = q.error) ∨ (p.error = some .memory ∧ ((∀ k, h.ok k = true) → Full p.st)))) ?_
  unfold parseOpen
  rw [hw_bind]
  refine hw_parserInit (scan_bytes_starts o enc bytes f) (bs := []) (Ext.start hh (fun (x : ∀ k, h.ok k = true) => x)) (fun h' p e ha => ?_)
    (fun h' p b ho e => ?_)
  · dsimp only
    rw [if_neg (by simp), hw_pure]
    exact ⟨e.fresh, e.done, ha⟩
  · dsimp only
    rw [if_pos rfl, hw_bind]
    refine hw_mono (hw_parseN (scan_bytes_link o enc bytes hsize f hf) (p := { st := p }) (q := Parser.init _) ⟨rfl, rfl, ho, .inr (init_einv _)⟩ e (parseN_clean hc hv))
      fun r h1 hr => ?_
    obtain ⟨os, p1⟩ := r
    obtain ⟨x, b', k1, k2, k3, k4⟩ := hr
    rw [List.append_nil] at k3
    rw [hw_pure]
    refine ⟨k3.fresh, vs, q, x, b', hv, k1.mono fun he ev x hx => ⟨(hx.2 trivial).1, ?_⟩, k2, ⟨k3.cells, k3.keys, k3.sep⟩, k4⟩
    obtain ⟨⟨E, _, _, j1, j2⟩, _⟩ := hx
    exact ⟨j1, j2⟩

/-- **C73, sessions.** Initialize a parser, call it any number of times, delete it, delete the events: the heap is as it was, whatever the allocations do. -/
theorem C73_parse_session (hfuel : 4 * bytes.length + 7 < fuel) (n : Nat) (h : Heap) (hh : h.Fresh) :
    ∃ r h', parseSession (scanSrc o f enc bytes) maxLevel fuel n h = .ok (r, h') ∧ h'.mem = h.mem ∧
      (r = none → ¬ ∀ k, h.ok k = true) ∧ ∀ (os : List HOut) (p : HPar HScan), r = some (os, p) →
        ∃ (vs : List POut) (q : Parser (Scanner × RS)), parseBytes o maxLevel f fuel enc bytes n = .ok (vs, q) ∧
          ((os.map HOut.kind = vs.map POut.kind ∧ p.error = q.error) ∨ (p.error = some .memory ∧ ((∀ k, h.ok k = true) → Full p.st))) := by
  obtain ⟨vs, q, hv, _⟩ := C56_parsing_is_total o maxLevel enc bytes hsize hf hfuel n
  have hc := scanner_clean o enc bytes hsize hf
  let _ : Strict := ⟨True⟩
  let _ := scanReach o enc bytes f
  obtain ⟨r, h', h1, h2, h3, h4⟩ :=
    history_core (scan_bytes_link o enc bytes hsize f hf) (scan_bytes_starts o enc bytes f) hh (parseN_clean hc hv)
  exact ⟨r, h', h1, h2, h3, fun os p hr => ⟨vs, q, hv, h4 os p hr⟩⟩

/-- **C73, documents.** Loading is defined, whatever the allocations do. The documents in the heap are the first of those that `loadBytes` loads (`ds`); the
new blocks are those of the documents (`x`), of the parser with its scanner (`b`), and at most those of `Lost` (C65). If all calls succeed nothing is lost. If all
allocations succeed the calls do what they do on values and nothing is lost, unless a stack is at its limit. -/
theorem C73_documents (hfuel : 4 * bytes.length + 7 < fuel) {m : Nat} (hm : 16 * bytes.length + 28 < m) (k : Nat) (h : Heap) (hh : h.Fresh) :
    ∃ r h', loadOpen (scanSrc o f enc bytes) maxLevel fuel m k h = .ok (r, h') ∧ h'.Fresh ∧
      match r with
      | none => h'.mem = h.mem ∧ ¬ ∀ k, h.ok k = true
      | some (hds, ok, p) => ∃ j os q ds x leak b, j ≤ k ∧ loadBytes roomy o maxLevel f fuel m enc bytes j = .ok (os, q) ∧ (j = k ∨ .failed ∈ os) ∧
          ds <+: docsOf os ∧ LoadedAt ds hds x ∧ Left p.par.st b ∧ Lost leak ∧ Adds h (x ++ (leak ++ b)) h' ∧
          (ok = true → leak = [] ∧ .failed ∉ os ∧ ds = docsOf os) ∧
          ((∀ k, h.ok k = true) → AtLimit (2 * m) p.par.st ∨ (leak = [] ∧ ds = docsOf os ∧ (ok = false → .failed ∈ os))) := by
  obtain ⟨j, os, q, hj, hv, hjk⟩ := C56_loading_is_total roomy o maxLevel enc bytes hsize hf hfuel hm k
  have hc := scanner_clean o enc bytes hsize hf
  let _ : Strict := ⟨True⟩
  let _ := scanReach o enc bytes f
  refine hw_out (Q := fun (r : Option (List HDoc × Bool × HLPar HScan)) (h' : Heap) => h'.Fresh ∧ match r with
      | none => h'.mem = h.mem ∧ ¬ ∀ k, h.ok k = true
      | some (hds, ok, p) => ∃ j os q ds x leak b, j ≤ k ∧ loadBytes roomy o maxLevel f fuel m enc bytes j = .ok (os, q) ∧ (j = k ∨ .failed ∈ os) ∧
          ds <+: docsOf os ∧ LoadedAt ds hds x ∧ Left p.par.st b ∧ Lost leak ∧ Adds h (x ++ (leak ++ b)) h' ∧
          (ok = true → leak = [] ∧ .failed ∉ os ∧ ds = docsOf os) ∧
          ((∀ k, h.ok k = true) → AtLimit (2 * m) p.par.st ∨ (leak = [] ∧ ds = docsOf os ∧ (ok = false → .failed ∈ os)))) ?_
  unfold loadOpen
  rw [hw_bind]
  refine hw_parserInit (scan_bytes_starts o enc bytes f) (bs := []) (Ext.start hh (fun (x : ∀ k, h.ok k = true) => x)) (fun h' p e ha => ?_)
    (fun h' p b ho e => ?_)
  · dsimp only
    rw [if_neg (by simp), hw_pure]
    exact ⟨e.fresh, e.done, ha⟩
  · dsimp only
    rw [if_pos rfl, hw_bind]
    refine hw_mono (hw_lLoads (scan_bytes_link o enc bytes hsize f hf) trivial (p := { par := { st := p } }) e rfl ⟨rfl, rfl, ho, .inr (init_einv _)⟩
      (loadN_clean hc hv) hj hjk) fun r g hr => ?_
    obtain ⟨hds, ok, p'⟩ := r
    obtain ⟨ds, x, leak, pb, k1, k2, k3, _, k4, k5, k6, k7⟩ := hr
    rw [List.append_nil] at k5
    rw [hw_pure]
    exact ⟨k5.fresh, j, os, q, ds, x, leak, pb, hj, hv, hjk, k1, k2, k3, k4, ⟨k5.cells, k5.keys, k5.sep⟩, k6, k7⟩

/-- Initialize a parser, load, delete the parser, delete the documents: the heap is as it was, up to the blocks of `Lost`. -/
theorem C73_load_session (hfuel : 4 * bytes.length + 7 < fuel) {m : Nat} (hm : 16 * bytes.length + 28 < m) (k : Nat) (h : Heap) (hh : h.Fresh) :
    ∃ j os q r h' leak, j ≤ k ∧ loadBytes roomy o maxLevel f fuel m enc bytes j = .ok (os, q) ∧ (j = k ∨ .failed ∈ os) ∧
      loadSession (scanSrc o f enc bytes) maxLevel fuel m k h = .ok (r, h') ∧ Lost leak ∧ Adds h leak h' ∧
      (∀ hds p, r = some (hds, true, p) → h'.mem = h.mem) ∧
      ((∀ k, h.ok k = true) → ∃ hds ok p, r = some (hds, ok, p) ∧
        (AtLimit (2 * m) p.par.st ∨ (h'.mem = h.mem ∧ hds.length = (docsOf os).length ∧ (ok = true ↔ .failed ∉ os)))) := by
  obtain ⟨j, os, q, hj, hv, hjk⟩ := C56_loading_is_total roomy o maxLevel enc bytes hsize hf hfuel hm k
  have hc := scanner_clean o enc bytes hsize hf
  let _ : Strict := ⟨True⟩
  let _ := scanReach o enc bytes f
  obtain ⟨r, h', leak, h1, h2, h3, h4, h5⟩ := load_history_core trivial (scan_bytes_link o enc bytes hsize f hf) maxLevel fuel m j k (scan_bytes_starts o enc bytes f)
    (loadN_clean hc hv) hj hjk h hh
  exact ⟨j, os, q, r, h', leak, hj, hv, hjk, h1, h2, h3, h4, h5⟩

/-- **C73, the reformatter.** For every input, handler and setting, and whatever the allocations do, the program of tests/example-reformatter.c comes to an
end without undefined behaviour, and then the heap is as it was. What it does is told by `ReformatLog` (C68). -/
theorem C73_reformat (hfuel : 4 * bytes.length + 7 < fuel) (W : OutH ω) (w : ω) (s : Emitter) (hs : Fresh s) {n : Nat} (hn : 16 * bytes.length + 28 < n)
    (h : Heap) (hh : h.Fresh) :
    ∃ r h' vs v, reformat (scanSrc o f enc bytes) W maxLevel fuel n s w h = .ok (r, h') ∧
      h'.mem = h.mem ∧ (r = none → ¬ ∀ k, h.ok k = true) ∧ parseBytes o maxLevel f fuel enc bytes n = .ok (vs, v) ∧
      ∀ x, r = some x → ReformatLog W (∀ k, h.ok k = true) v.error vs s w x := by
  obtain ⟨vs, v, hv, hend⟩ := bytes_end o maxLevel enc bytes hsize hf hfuel hn
  have hc := scanner_clean o enc bytes hsize hf
  let _ : Strict := ⟨True⟩
  let _ := scanReach o enc bytes f
  obtain ⟨r, h', h1, h2, h3, h4⟩ := reformat_core trivial (scan_bytes_link o enc bytes hsize f hf) W w s hs maxLevel fuel n
    (scan_bytes_starts o enc bytes f) (parseN_clean hc hv) hend h hh
  exact ⟨r, h', vs, v, h1, h2, h3, hv, h4⟩

/-- Its output, and how it ends, depends only on the input, the handlers and the settings, unless memory is lacking. -/
theorem C73_reformat_output (hfuel : 4 * bytes.length + 7 < fuel) (W : OutH ω) (w : ω) (s : Emitter) (hs : Fresh s) {n : Nat} (hn : 16 * bytes.length + 28 < n)
    (h : Heap) (hh : h.Fresh) {h' : Heap} {e : REnd} {p : HPar HScan} {w' : ω}
    (hr : reformat (scanSrc o f enc bytes) W maxLevel fuel n s w h = .ok (some (e, p, w'), h')) :
    Starved (e, p, w') ∨ ∃ vs v, parseBytes o maxLevel f fuel enc bytes n = .ok (vs, v) ∧ reformatted W vs s w = (e, w') ∧ e ≠ .running ∧
      (e = .parser → p.error = v.error) ∧ (e ≠ .parser → p.error = none) := by
  obtain ⟨r, h1, vs, v, k1, _, _, k2, k3⟩ := C73_reformat o maxLevel enc bytes hsize f fuel hf hfuel W w s hs hn h hh
  rw [hr] at k1
  cases k1
  have hl := k3 _ rfl
  rcases hl.same with hx | ⟨hx, hy⟩
  · exact .inl hx
  · exact .inr ⟨vs, v, k2, hx, hl.over, by rintro rfl; exact hy, by cases e <;> simp_all⟩

/-- **C73, the converter.** For every input, handler and setting, and whatever the allocations do, the program of tests/example-reformatter-alt.c comes to an
end without undefined behaviour, and then the heap is as it was, but for the blocks of `Lost` (C65). What it does is told by `ConvertLog` (C70). -/
theorem C73_convert (hfuel : 4 * bytes.length + 7 < fuel) (W : OutH ω) (w : ω) (s : Emitter) (hs : Fresh s) {m n dfuel : Nat}
    (hm : 16 * bytes.length + 28 < m) (hn : 16 * bytes.length + 28 < n) (hmax : m ≤ 2147483647) (hdf : m < dfuel) (h : Heap) (hh : h.Fresh) :
    ∃ r h' leak j os v, convert (scanSrc o f enc bytes) W maxLevel fuel m dfuel n s w h = .ok (r, h') ∧ Lost leak ∧ Adds h leak h' ∧
      (leak = [] → h'.mem = h.mem) ∧ (r = none → leak = [] ∧ ¬ ∀ k, h.ok k = true) ∧
      loadBytes roomy o maxLevel f fuel m enc bytes j = .ok (os, v) ∧ LoadEnds os ∧
      ∀ x, r = some x → ConvertLog W (∀ k, h.ok k = true) m dfuel os { out := (s, w) } x leak ∧ x.1 ≠ .running ∧ (leak ≠ [] → x.1 = .parser) := by
  obtain ⟨j, os, v, hj, hv, hend, hg⟩ := loads_end o maxLevel enc bytes hsize hf hfuel hm hn
  have hc := scanner_clean o enc bytes hsize hf
  let _ : Strict := ⟨True⟩
  let _ := scanReach o enc bytes f
  obtain ⟨r, h', leak, k1, k2, k3, k4, k5, k6⟩ := convert_core trivial (scan_bytes_link o enc bytes hsize f hf) W w s hs maxLevel fuel m dfuel j n
    (scan_bytes_starts o enc bytes f) (loadN_clean hc hv) hj hend hg hmax hdf h hh
  exact ⟨r, h', leak, j, os, v, k1, k2, k3, k4, k5, hv, hend, fun x hx => ⟨k6 x hx, (k6 x hx).over⟩⟩

/-- Its output, and how it ends, depends only on the input, the handlers and the settings, unless memory is lacking; and then nothing leaks. -/
theorem C73_convert_output (hfuel : 4 * bytes.length + 7 < fuel) (W : OutH ω) (w : ω) (s : Emitter) (hs : Fresh s) {m n dfuel : Nat}
    (hm : 16 * bytes.length + 28 < m) (hn : 16 * bytes.length + 28 < n) (hmax : m ≤ 2147483647) (hdf : m < dfuel) (h : Heap) (hh : h.Fresh) {h' : Heap}
    {x : CEnd × HPar HScan × HDumper (HEm ω)} (hr : convert (scanSrc o f enc bytes) W maxLevel fuel m dfuel n s w h = .ok (some x, h')) :
    Lacking (∀ k, h.ok k = true) m x ∨
      h'.mem = h.mem ∧ x.1 ≠ .running ∧ ∃ j os v z, loadBytes roomy o maxLevel f fuel m enc bytes j = .ok (os, v) ∧ LoadEnds os ∧
        converted (emitTo (outEnv W)) dfuel os { out := (s, w) } = .ok (x.1, z) ∧ z.out.2 = x.2.2.out.world := by
  obtain ⟨r, h1, leak, j, os, v, k1, _, _, k4, _, k5, k6, k7⟩ := C73_convert o maxLevel enc bytes hsize f fuel hf hfuel W w s hs hm hn hmax hdf h hh
  rw [hr] at k1
  cases k1
  obtain ⟨l1, l2, _⟩ := k7 x rfl
  rcases l1.same with hx | ⟨hx, z, hy, hz⟩
  · exact .inl hx
  · exact .inr ⟨k4 hx, l2, j, os, v, z, k5, k6, hy, hz⟩

end

/-! ### Runs -/

/-- The outcomes, whether there is an error, and the blocks in use at the end. -/
def demoScanParse (bytes : List UInt8) (n : Nat) (h : Heap) : Option (Option (List OutKind × Bool) × List Nat) :=
  match parseSession (scanSrc (fun _ => some 2) 30 none bytes) 1000 60 n h with
  | .ok (r, h) => some (r.map fun r => (r.1.map HOut.kind, r.2.error.isSome), (List.range 60).filter fun p => (h.mem p).isSome)
  | .error _ => none

/- `a: [b]`: ten events; the sixteenth to nineteenth allocation are made after five of them. -/
example : demoScanParse sample 10 (demoHeap 100) = some (some (List.replicate 10 .event, false), [0]) := by decide +kernel
example : demoScanParse sample 10 (demoHeap 17) = some (some (List.replicate 5 .event ++ .failed :: List.replicate 4 .noEvent, true), [0]) := by decide +kernel
/- The parser makes eight allocations while it is initialized. -/
example : demoScanParse sample 10 (demoHeap 7) = some (none, [0]) := by decide +kernel

/-- The number of documents, whether the calls succeeded, and the blocks in use at the end. -/
def demoScanLoads (bytes : List UInt8) (k : Nat) (h : Heap) : Option (Option (Nat × Bool) × List Nat) :=
  match loadSession (scanSrc (fun _ => some 7) 30 none bytes) 1000 60 200 k h with
  | .ok (r, h) => some (r.map fun r => (r.1.length, r.2.1), (List.range 80).filter fun p => (h.mem p).isSome)
  | .error _ => none

/- `&a [b]` -/
example : demoScanLoads [38, 97, 32, 91, 98, 93] 3 (demoHeap 100) = some (some (3, true), [0]) := by decide +kernel
example : demoScanLoads [38, 97, 32, 91, 98, 93] 3 (demoHeap 10) = some (some (0, false), [0]) := by decide +kernel
/- The known leak: without memory for the stack of aliases the version directive is lost. -/
example : demoScanLoads demoBytes 3 (demoHeap 16) = some (some (0, false), [0, 12]) := by decide +kernel

/-- The end, the error of the parser, the output, and the blocks in use at the end. -/
def demoScanReformat (bytes : List UInt8) (k : Nat) (h : Heap) : Option (Option (DemoEnd × Bool × String) × List Nat) :=
  match reformat (scanSrc (fun _ => some 1) (bytes.length + 4) none bytes) demoOut 1000 (4 * bytes.length + 8) (16 * bytes.length + 29) {} ([], k) h with
  | .ok (r, h) => some (r.map fun r => (.of r.1, r.2.1.error.isSome, String.ofList (r.2.2.1.map Char.ofNat)), (List.range 120).filter fun p => (h.mem p).isSome)
  | .error _ => none

/- `- &a x` `- *a`: with memory, without memory for the scanner, and without memory for the emitter. -/
example : demoScanReformat demoInput 1000 (demoHeap 1000) = some (some (.done, false, "- &a x\n- *a\n"), [0]) := by decide +kernel
example : demoScanReformat demoInput 1000 (demoHeap 14) = some (some (.parser, true, ""), [0]) := by decide +kernel
example : demoScanReformat demoInput 1000 (demoHeap 20) = some (some (.memory, false, ""), [0]) := by decide +kernel
/- Input with an error. -/
example : demoScanReformat demoBroken 1000 (demoHeap 1000) = some (some (.parser, true, ""), [0]) := by decide +kernel

end LibYaml
