import Verif.Proofs.ConvertBack
import Verif.Props.Reread

/-!
# C70: loader and dumper at work on one heap

The program of tests/example-reformatter-alt.c. Inputs, heaps, allocation outcomes, output handlers `W` and settings of the emitter are arbitrary.
`Spec.converted` is what dumping the outcomes of the loader does on values; `Lacking` says that memory is lacking.
-/

namespace LibYaml

open Spec

variable {ρ σ ω : Type}

/-- With a clean source of tokens. -/
theorem convert_core [SrcMem ρ] [SrcLink ρ σ] [Strict] (hstrict : Strict.strict) {H : HSrc ρ} {S : TokSrc σ} (hk : Link H S) (W : OutH ω) (w : ω) (s : Emitter)
    (hs : Fresh s) (maxLevel : Int) (fuel m dfuel j n : Nat) {src : σ} (hst : SrcStarts H src)
    {os : List LOut} {v : Parser σ} (hv : loadN roomy (cutSrc S) maxLevel fuel m j (Parser.init src) = .ok (os, v)) (hj : j ≤ n) (hend : LoadEnds os)
    (hg : ∀ d, .doc d ∈ os → GraphOk d.nodes) (hm : m ≤ 2147483647) (hdf : m < dfuel) (h : Heap) (hf : h.Fresh) :
    ∃ r h' leak, convert H W maxLevel fuel m dfuel n s w h = .ok (r, h') ∧ Lost leak ∧ Adds h leak h' ∧ (leak = [] → h'.mem = h.mem) ∧
      (r = none → leak = [] ∧ ¬ ∀ k, h.ok k = true) ∧ ∀ x, r = some x → ConvertLog W (∀ k, h.ok k = true) m dfuel os { out := (s, w) } x leak := by
  have key : hw (convert H W maxLevel fuel m dfuel n s w) (fun r h' => ∃ leak, Lost leak ∧ Ext (∀ k, h.ok k = true) h.mem leak h' ∧
      (r = none → leak = [] ∧ ¬ ∀ k, h.ok k = true) ∧ ∀ x, r = some x → ConvertLog W (∀ k, h.ok k = true) m dfuel os { out := (s, w) } x leak) h := by
    unfold convert
    rw [hw_bind]
    refine hw_parserInit hst (bs := []) (Ext.start hf (fun (x : ∀ k, h.ok k = true) => x)) (fun h' p e ha => ?_) (fun h' p b ho e => ?_)
    · dsimp only
      rw [if_neg (by simp), hw_pure]
      exact ⟨[], .inl rfl, e, fun _ => ⟨rfl, ha⟩, fun x hx => by cases hx⟩
    · dsimp only
      rw [if_pos rfl, hw_bind]
      refine hw_emitterInit (bs := b ++ []) e (fun h1 e1 ha => ?_) (fun h1 q c hq hval hw e1 => ?_)
      · simp only
        rw [hw_bind]
        refine hw_parserDelete hst.toSrcCloses ho.left e1 fun h2 e2 => ?_
        rw [hw_pure]
        exact ⟨[], .inl rfl, e2, fun _ => ⟨rfl, ha⟩, fun x hx => by cases hx⟩
      · simp only
        rw [hw_bind]
        obtain ⟨j1, j2⟩ := C66_settings hq hs
        refine hw_mono (hw_convertLoop (W := W) (bs := []) (v := (s, w)) (o := c) hk hstrict (p := { par := { st := p } }) rfl ⟨rfl, rfl, ho, .inr (init_einv src)⟩ rfl rfl
          ⟨j1, hw, fun _ => j2⟩ (e1.perm (by blocks)) hv hj hend hg hm hdf) ?_
        rintro ⟨r, p1, q1⟩ h2 ⟨b', s', c', leak, l1, l2, l3, l4, l5, l6⟩
        simp only at l1 l2 l3 l5 l6 ⊢
        rw [hw_bind]
        refine hw_parserDelete hst.toSrcCloses l1 l5 fun h3 e3 => ?_
        rw [hw_bind, l3]
        refine hw_emitterDelete (y := []) (bs := leak ++ []) l2 (.inl ⟨rfl, rfl⟩) e3 fun h4 e4 => ?_
        rw [hw_pure]
        rw [List.append_nil] at e4
        refine ⟨leak, l4, e4, (fun hx => by cases hx), fun x hx => ?_⟩
        cases hx
        exact l6
  obtain ⟨r, h', hr, leak, h1, h2, h3, h4⟩ := hw_out key
  refine ⟨r, h', leak, hr, h1, ⟨h2.cells, h2.keys, h2.sep⟩, fun hl => ?_, h3, h4⟩
  subst hl
  exact h2.done

section
variable (o : Oracle) (W : OutH ω) (w : ω) (s : Emitter) (maxLevel : Int) (enc : Option Enc) (bytes : List UInt8) (f fuel m dfuel n : Nat)

/-- The program for these bytes. -/
def convertBytes : HM (Option (CEnd × HPar (MemSrc (Scanner × RS)) × HDumper (HEm ω))) :=
  convert (byteSrc o f enc bytes) W maxLevel fuel m dfuel n s w

theorem convert_bytes_core (hs : Fresh s) (hsize : bytes.length < maxFileSize) (hf : bytes.length + 3 < f) {j : Nat} {os : List LOut} {v : Parser (Scanner × RS)}
    (hv : loadBytes roomy o maxLevel f fuel m enc bytes j = .ok (os, v)) (hj : j ≤ n) (hend : LoadEnds os)
    (hg : ∀ d, .doc d ∈ os → GraphOk d.nodes) (hm : m ≤ 2147483647) (hdf : m < dfuel) (h : Heap) (hh : h.Fresh) :
    ∃ r h' leak, convertBytes o W w s maxLevel enc bytes f fuel m dfuel n h = .ok (r, h') ∧ Lost leak ∧ Adds h leak h' ∧ (leak = [] → h'.mem = h.mem) ∧
      (r = none → leak = [] ∧ ¬ ∀ k, h.ok k = true) ∧ ∀ x, r = some x → ConvertLog W (∀ k, h.ok k = true) m dfuel os { out := (s, w) } x leak := by
  have hc := scanner_clean o enc bytes hsize hf
  let _ : Strict := ⟨True⟩
  let _ : SrcInv (Scanner × RS) := ⟨SrcReach (scannerSrc o f) ((scanStart enc bytes).scanner, (scanStart enc bytes).input)⟩
  exact convert_core trivial (mem_link (reach_keeps (clean_readable hc) (fun _ => hc)) _) W w s hs maxLevel fuel m dfuel j n (mem_starts SrcReach.refl)
    (loadN_clean hc hv) hj hend hg hm hdf h hh

/-- What loading gives without bounds on memory has only valid node numbers. -/
theorem loaded_graphs (hsize : bytes.length < maxFileSize) (hf : bytes.length + 3 < f) {j : Nat} {os : List LOut} {v : Parser (Scanner × RS)}
    (hv : loadBytes roomy o maxLevel f fuel m enc bytes j = .ok (os, v)) : ∀ d, .doc d ∈ os → GraphOk d.nodes := by
  intro d hd
  by_cases hj : j = 0
  · subst hj
    cases hv
    cases hd
  · rcases (C56_loading roomy o maxLevel fuel m enc bytes hsize hf j hj hv).1 d hd with rfl | ⟨_, h, _⟩
    · exact nofun
    · exact graph_of_ids h

/-- C70. For every byte string, input handler, output handler and setting, and whatever the allocations do, the program comes to an end without undefined
behaviour. Strings move from the input through events, documents and events again without being copied, freed twice or lost: then the heap is as it was, but for the
blocks of `Lost`, which are a known defect of the loader (C65) and need a failing allocation or a stack at its limit. What it does is told by `ConvertLog`: the
documents are those of `loadBytes`, in this order, and each call of the dumper does what it does on values. -/
theorem C70_convert (hs : Fresh s) (hsize : bytes.length < maxFileSize) (hf : bytes.length + 3 < f) (hfuel : 4 * bytes.length + 7 < fuel)
    (hm : 16 * bytes.length + 28 < m) (hn : 16 * bytes.length + 28 < n) (hmax : m ≤ 2147483647) (hdf : m < dfuel) (h : Heap) (hh : h.Fresh) :
    ∃ r h' leak j os v, convertBytes o W w s maxLevel enc bytes f fuel m dfuel n h = .ok (r, h') ∧ Lost leak ∧ Adds h leak h' ∧
      (leak = [] → h'.mem = h.mem) ∧ (r = none → leak = [] ∧ ¬ ∀ k, h.ok k = true) ∧
      loadBytes roomy o maxLevel f fuel m enc bytes j = .ok (os, v) ∧ LoadEnds os ∧
      ∀ x, r = some x → ConvertLog W (∀ k, h.ok k = true) m dfuel os { out := (s, w) } x leak ∧ x.1 ≠ .running ∧ (leak ≠ [] → x.1 = .parser) := by
  obtain ⟨j, os, v, hj, hv, hend, hg⟩ := loads_end o maxLevel enc bytes hsize hf hfuel hm hn
  obtain ⟨r, h', leak, k1, k2, k3, k4, k5, k6⟩ := convert_bytes_core o W w s maxLevel enc bytes f fuel m dfuel n hs hsize hf hv hj hend hg hmax hdf h hh
  exact ⟨r, h', leak, j, os, v, k1, k2, k3, k4, k5, hv, hend, fun x hx => ⟨k6 x hx, (k6 x hx).over⟩⟩

/-- What the program puts out, and how it ends, depends only on the input, the handlers and the settings, unless memory is lacking; and then nothing leaks. The
outcomes of the loader may be those of any number `j ≤ n` of calls that tell how the stream ends. -/
theorem C70_output (hs : Fresh s) (hsize : bytes.length < maxFileSize) (hf : bytes.length + 3 < f) (hmax : m ≤ 2147483647) (hdf : m < dfuel)
    {j : Nat} {os : List LOut} {v : Parser (Scanner × RS)} (hv : loadBytes roomy o maxLevel f fuel m enc bytes j = .ok (os, v)) (hj : j ≤ n) (hend : LoadEnds os)
    (h : Heap) (hh : h.Fresh) {h' : Heap} {x : CEnd × HPar (MemSrc (Scanner × RS)) × HDumper (HEm ω)}
    (hr : convertBytes o W w s maxLevel enc bytes f fuel m dfuel n h = .ok (some x, h')) :
    Lacking (∀ k, h.ok k = true) m x ∨
      h'.mem = h.mem ∧ x.1 ≠ .running ∧ ∃ z, converted (emitTo (outEnv W)) dfuel os { out := (s, w) } = .ok (x.1, z) ∧ z.out.2 = x.2.2.out.world := by
  obtain ⟨r, h1, leak, k1, _, _, k4, _, k6⟩ := convert_bytes_core o W w s maxLevel enc bytes f fuel m dfuel n hs hsize hf hv hj hend
    (loaded_graphs o maxLevel enc bytes f fuel m hsize hf hv) hmax hdf h hh
  rw [hr] at k1
  cases k1
  rcases (k6 x rfl).same with hx | ⟨hx, hy⟩
  · exact .inl hx
  · exact .inr ⟨k4 hx, (k6 x rfl).over.1, hy⟩

end

/-! ### Loaded documents can be dumped -/

/-- What a whole stream gives. -/
theorem loaded_stream (o : Oracle) (n : Int) (enc : Option Enc) (bytes : List UInt8) (hsize : bytes.length < maxFileSize) {f fuel m k : Nat} (hf : bytes.length + 3 < f)
    {room : Nat → Bool} {ls : List LOut} {r : Parser (Scanner × RS)} (h : loadBytes room o n f fuel m enc bytes k = .ok (ls, r)) (hfail : .failed ∉ ls)
    (hempty : .doc Doc.empty ∈ ls) :
    ∃ (ds : List Doc) (j : Nat), ls = ds.map .doc ++ List.replicate (j + 1) (.doc Doc.empty) ∧
      ∀ d ∈ ds, d.nodes ≠ [] ∧ d.nodes.length ≤ m ∧ (∃ w, RepDoc w d ∧ ∀ e ∈ w, GoodEv e.data) ∧ ∀ nd ∈ d.nodes, nd.tag ≠ [0x21] := by
  have hk : k ≠ 0 := by
    rintro rfl
    cases h
    cases hempty
  obtain ⟨_, se, ws, ds, tl, _, rfl, _, h4, h5, h6⟩ := C56_loading room o n fuel m enc bytes hsize hf k hk h
  have hrep : List.Forall₂ RepDoc ws ds := by
    rw [List.forall₂_iff_zip]
    exact ⟨h4, fun {a b} hab => h5 (a, b) hab⟩
  have hne : ∀ d ∈ ds, d.nodes ≠ [] := by
    intro d hd
    obtain ⟨w, _, hw⟩ := forall2_right hrep hd
    exact (repDoc_wellFormed hw).1
  rcases h6 with ⟨rfl, _⟩ | ⟨j, ee, rfl, k2, k3, _⟩ | rfl
  · exfalso
    rw [List.append_nil] at hempty
    obtain ⟨d, hd, he⟩ := List.mem_map.mp hempty
    cases he
    exact hne _ hd rfl
  · refine ⟨ds, j, rfl, fun d hd => ?_⟩
    obtain ⟨w, hw, hr⟩ := forall2_right hrep hd
    have hp := k3.parseN
    have hev : ∀ e ∈ se :: ws.flatten ++ [ee], GoodEv e.data := by
      intro e he
      refine (parsed_good hsize hf (show parseBytes o n f fuel enc bytes _ = _ from hp) ?_).1 _ ?_
      · rw [events_map, ← k2]
        exact List.mem_map_of_mem (by simp)
      · rw [events_map]
        exact List.mem_map_of_mem he
    have hgood : ∀ e ∈ w, GoodEv e.data := fun e he => hev e (by
      simp only [List.cons_append, List.mem_cons, List.mem_append, List.mem_flatten]
      exact .inr (.inl ⟨w, hw, he⟩))
    refine ⟨hne d hd, loadN_count h (by simp [hd]), ⟨w, hr, hgood⟩, ?_⟩
    obtain ⟨es, body, ee', A, rfl, _, _, _, _, hb⟩ := hr
    exact fun nd hnd => (rep_good hb (fun e he => hgood e (by simp [he])) nd hnd).1.2
  · exact absurd (by simp) hfail

/-- C70. What is loaded from a text, and is `KeptDoc`, meets all conditions of the round trip through dumper and emitter (C61): nothing else that the loader can
deliver gets in the way. -/
theorem C70_loaded_documents (o : Oracle) (n : Int) (enc : Option Enc) (bytes : List UInt8) (hsize : bytes.length < maxFileSize) {f fuel m k : Nat}
    (hf : bytes.length + 3 < f) (hmax : m ≤ 2147483647) {room : Nat → Bool} {ls : List LOut} {r : Parser (Scanner × RS)}
    (h : loadBytes room o n f fuel m enc bytes k = .ok (ls, r)) (hfail : .failed ∉ ls) (hempty : .doc Doc.empty ∈ ls) :
    ∃ (ds : List Doc) (j : Nat), ls = ds.map .doc ++ List.replicate (j + 1) (.doc Doc.empty) ∧ ∀ d ∈ ds, KeptDoc d → Dumpable d := by
  obtain ⟨ds, j, h1, h2⟩ := loaded_stream o n enc bytes hsize hf h hfail hempty
  refine ⟨ds, j, h1, fun d hd hk => ?_⟩
  obtain ⟨_, h3, ⟨w, h4, h5⟩, _⟩ := h2 d hd
  exact kept_dumpable h4 h5 (Nat.le_trans h3 hmax) hk

/-! ### What is dumped is loaded again -/

theorem loaded_again {o : Oracle} {n : Int} {enc : Option Enc} {bytes : List UInt8} (hsize : bytes.length < maxFileSize) {f fuel m k : Nat} (hf : bytes.length + 3 < f)
    {room : Nat → Bool} {ds : List Doc} {r : Parser (Scanner × RS)} (h : loadBytes room o n f fuel m enc bytes k = .ok (ds.map .doc ++ [.doc Doc.empty], r))
    {d : Doc} (hd : d ∈ ds) (hne : d.nodes ≠ []) : ∃ w, RepDoc w d := by
  obtain ⟨ds', j, h1, h2⟩ := loaded_stream o n enc bytes hsize hf h (by simp) (by simp)
  have hm : LOut.doc d ∈ ds'.map .doc ++ List.replicate (j + 1) (.doc Doc.empty) := by
    rw [← h1]
    simp [hd]
  rcases List.mem_append.mp hm with hm | hm
  · obtain ⟨d', hd', he⟩ := List.mem_map.mp hm
    cases he
    obtain ⟨_, _, ⟨w, hw, _⟩, _⟩ := h2 d hd'
    exact ⟨w, hw⟩
  · have := List.eq_of_mem_replicate hm
    cases this
    exact absurd rfl hne

section
variable {σ : Type} (hd : Handler σ) (I : σ → Prop) (hI : Safe hd I) (x : σ) (hx : I x) (s : Emitter) (hs : Fresh s)
  (o : Oracle) (maxLevel : Int) (enc : Option Enc) (bytes : List UInt8) (hsize : bytes.length < maxFileSize)
  (f fuel m dfuel n : Nat) (hf : bytes.length + 3 < f) (hmax : m ≤ 2147483647) (hdf : m < dfuel)

/-- The program with the writer of the library. The dumper does not know the encoding of the input. -/
def convertWritten : HM (Option (CEnd × HPar (MemSrc (Scanner × RS)) × HDumper (HEm (Except Fail (WS σ) × Unit)))) :=
  convertBytes o (writerOut hd) (.ok (WS.init (s.encoding.getD .utf8) x), ()) s maxLevel enc bytes f fuel m dfuel n

include hI hx hs hsize hf hmax hdf in
/-- C70. Let the program be done, let the input load without error, and let its documents be `KeptDoc`, the first one visible. Then nothing is left in the heap,
and the output, read in pieces of any size, loads: one document for each document of the input, the same but for styles, positions and implicit markers. -/
theorem C70_documents_survive {h h' : Heap} (hh : h.Fresh) {p : HPar (MemSrc (Scanner × RS))} {t : HDumper (HEm (Except Fail (WS σ) × Unit))}
    (hr : convertWritten hd x s o maxLevel enc bytes f fuel m dfuel n h = .ok (some (.done, p, t), h'))
    {k0 : Nat} (hk0 : k0 ≤ n) {ls : List LOut} {r : Parser (Scanner × RS)} (hload : loadBytes roomy o maxLevel f fuel m enc bytes k0 = .ok (ls, r))
    (hfail : .failed ∉ ls) (hempty : .doc Doc.empty ∈ ls) (hkeep : ∀ d, .doc d ∈ ls → KeptDoc d)
    (hfirst : s.canonical = false → ∀ d, ls.head? = some (.doc d) → ¬ Invisible d) :
    h'.mem = h.mem ∧ ∃ (ds : List Doc) (j : Nat) (st : WS σ), ls = ds.map .doc ++ List.replicate (j + 1) (.doc Doc.empty) ∧ t.out.world.1 = .ok st ∧
      ∀ (room : Nat → Bool) (o' : Oracle) (n' : Int) (f' fuel' m' : Nat), NoFail o' → st.trace.flatten.length < maxInt → st.trace.flatten.length + 3 < f' →
        4 * st.trace.flatten.length + 7 < fuel' → 16 * st.trace.flatten.length + 28 < m' → 2 ≤ n' → n' ≤ maxInt →
        (∀ es, DumpedDocs ds es → (∀ k, Deep k es → (k : Int) < n') ∧ ∀ k, k < es.length → room k = true) →
        ∃ ds' p', loadBytes room o' n' f' fuel' m' none st.trace.flatten (ds.length + 1) = .ok (ds'.map .doc ++ [.doc Doc.empty], p') ∧
          List.Forall₂ SameLoaded ds ds' := by
  obtain ⟨ds, j, h1, h2⟩ := loaded_stream o maxLevel enc bytes hsize hf hload hfail hempty
  rcases C70_output o (writerOut hd) _ s maxLevel enc bytes f fuel m dfuel n hs hsize hf hmax hdf hload hk0 (.inr ⟨_, hempty, rfl⟩) h hh hr with hl | ⟨hmem, _, z, k1, k2⟩
  · rcases hl with ⟨hl, _⟩ | ⟨hl, _⟩ <;> cases hl
  · refine ⟨hmem, ds, j, ?_⟩
    subst h1
    rw [List.replicate_succ] at k1
    obtain ⟨bs, k3, k4⟩ := converted_calls (fun d hd => (h2 d hd).1) k1
    rw [writerOut_env] at k3
    have hdump : ∀ d ∈ ds, Dumpable d := by
      intro d hd
      obtain ⟨_, h3, ⟨w, h4, h5⟩, _⟩ := h2 d hd
      exact kept_dumpable h4 h5 (Nat.le_trans h3 hmax) (hkeep d (by simp [hd]))
    obtain ⟨st, j1, j2⟩ := C61_dump_then_load hs hdump (fun hc d hd => hfirst hc d (by
        cases ds with
        | nil => cases hd
        | cons y ds => cases hd; rfl)) (fun d hd => Nat.lt_of_le_of_lt (h2 d hd).2.1 hdf) hd I hI x hx _ () k3 k4
    rw [k2] at j1
    refine ⟨st, rfl, j1, fun room o' n' f' fuel' m' ho' hlen' hf' hfuel' hm' hn2 hn3 hmore => ?_⟩
    obtain ⟨ds', p', g1, g2⟩ := j2 room o' n' f' fuel' m' ho' hlen' hf' hfuel' hm' hn2 hn3 hmore
    refine ⟨ds', p', g1, forall2_imp_mem g2 fun d d' hd hd' hsame => ?_⟩
    obtain ⟨_, _, ⟨w, h4, _⟩, h6⟩ := h2 d hd
    have hne : d'.nodes ≠ [] := by
      intro hz
      obtain ⟨_, _, pos, _, _, _, hall⟩ := hsame
      obtain ⟨_, _, _, _, hx, _⟩ := hall 1 (.here (by simp))
      rw [hz] at hx
      cases hx
    obtain ⟨w', hw'⟩ := loaded_again (Nat.lt_trans hlen' (by decide)) hf' g1 hd' hne
    exact same_loaded h4 hw' h6 hsame

include hs hsize hf hmax hdf in
/-- C70. If the whole input can be loaded, its documents are `KeptDoc` and the first one is visible, the write handler never fails, and every allocation succeeds, then
the program is done, unless a stack reaches its limit. -/
theorem C70_succeeds (hh' : ∀ s b, ∃ s', hd s b = .ok (true, s')) {h : Heap} (hh : h.Fresh) (hA : ∀ k, h.ok k = true)
    {k0 : Nat} (hk0 : k0 ≤ n) {ls : List LOut} {r : Parser (Scanner × RS)} (hload : loadBytes roomy o maxLevel f fuel m enc bytes k0 = .ok (ls, r))
    (hfail : .failed ∉ ls) (hempty : .doc Doc.empty ∈ ls) (hkeep : ∀ d, .doc d ∈ ls → KeptDoc d)
    (hfirst : s.canonical = false → ∀ d, ls.head? = some (.doc d) → ¬ Invisible d) :
    ∃ e p t h', convertWritten hd x s o maxLevel enc bytes f fuel m dfuel n h = .ok (some (e, p, t), h') ∧
      (e = .done ∨ (e = .parser ∧ AtLimit (2 * m) p.st) ∨ (e = .emitter ∧ FullEm t.out)) := by
  obtain ⟨y, h', leak, k1, _, _, _, k5, _⟩ := convert_bytes_core o (writerOut hd) (.ok (WS.init (s.encoding.getD .utf8) x), ()) s maxLevel enc bytes f fuel m dfuel n
    hs hsize hf hload hk0 (.inr ⟨_, hempty, rfl⟩) (loaded_graphs o maxLevel enc bytes f fuel m hsize hf hload) hmax hdf h hh
  cases y with
  | none => exact absurd hA (k5 rfl).2
  | some y =>
    obtain ⟨e, p, t⟩ := y
    refine ⟨e, p, t, h', k1, ?_⟩
    rcases C70_output o (writerOut hd) _ s maxLevel enc bytes f fuel m dfuel n hs hsize hf hmax hdf hload hk0 (.inr ⟨_, hempty, rfl⟩) h hh k1 with hl | ⟨_, _, z, g1, _⟩
    · rcases hl with ⟨h1, h2⟩ | ⟨h1, h2⟩
      · exact .inr (.inl ⟨h1, h2 hA⟩)
      · exact .inr (.inr ⟨h1, h2 hA⟩)
    · obtain ⟨ds, j, h1, h2⟩ := loaded_stream o maxLevel enc bytes hsize hf hload hfail hempty
      subst h1
      have hdump : ∀ d ∈ ds, Dumpable d := by
        intro d hd
        obtain ⟨_, h3, ⟨w, h4, h5⟩, _⟩ := h2 d hd
        exact kept_dumpable h4 h5 (Nat.le_trans h3 hmax) (hkeep d (by simp [hd]))
      obtain ⟨bs, z', c1, c2⟩ := C61_dump_succeeds hs hdump (fun hc d hd => hfirst hc d (by
          cases ds with
          | nil => cases hd
          | cons y ds => cases hd; rfl)) (fun d hd => Nat.lt_of_le_of_lt (h2 d hd).2.1 hdf) hd hh' x (fun (m : Unit) => (true, m)) (fun _ => rfl) ()
      rw [← writerOut_env] at c1
      have := calls_converted (os := List.replicate j (.doc Doc.empty)) (fun d hd => (h2 d hd).1) c1 c2
      rw [List.replicate_succ, this] at g1
      cases g1
      exact .inl rfl

end

/-! ### Runs -/

/-- How the program ends, the output, and the blocks in use at the end. At most `k` operations of the output handler succeed. -/
def demoConvert (s : Emitter) (bytes : List UInt8) (k : Nat) (h : Heap) : Option (Option (CEnd × List Nat) × List Nat) :=
  match convertBytes (fun _ => some 1) demoOut ([], k) s 1000 none bytes (bytes.length + 4) (4 * bytes.length + 8) (16 * bytes.length + 29) (16 * bytes.length + 30)
      (16 * bytes.length + 29) h with
  | .ok (r, h) => some (r.map fun r => (r.1, r.2.2.out.world.1), (List.range 160).filter fun p => (h.mem p).isSome)
  | .error _ => none

/- With memory and output; the dumper chooses anchors of its own. -/
example : demoConvert {} demoInput 1000 (demoHeap 1000) = some (some (.done, lit "- &id001 x\n- *id001\n".toList), [0]) := by decide +kernel
/- Whichever allocation fails: the heap is as it was. Parser and emitter make fourteen while they are initialized; then loading fails, then dumping. -/
example : ∀ k, k < 34 → (demoConvert {} demoInput 1000 (demoHeap k)).map Prod.snd = some [0] := by decide +kernel
example : demoConvert {} demoInput 1000 (demoHeap 13) = some (none, [0]) := by decide +kernel
example : demoConvert {} demoInput 1000 (demoHeap 24) = some (some (.parser, []), [0]) := by decide +kernel
example : demoConvert {} demoInput 1000 (demoHeap 25) = some (some (.emitter, []), [0]) := by decide +kernel
/- An undefined alias, and an output handler that fails. -/
example : demoConvert {} demoBroken 1000 (demoHeap 1000) = some (some (.parser, []), [0]) := by decide +kernel
example : demoConvert {} demoInput 3 (demoHeap 1000) = some (some (.emitter, lit ['-', ' ', '&']), [0]) := by decide +kernel

/-- The nodes of the loaded documents, up to and including the one without nodes. -/
def demoContent (bytes : List UInt8) : List (List (Text × NodeData)) :=
  match loadBytes roomy (fun _ => some 1) 1000 (bytes.length + 4) (4 * bytes.length + 8) (16 * bytes.length + 29) none bytes 3 with
  | .ok (os, _) => upTo (os.filterMap fun | .doc d => some (d.nodes.map fun nd => (nd.tag, nd.data)) | .failed => none)
  | .error _ => []
where
  upTo : List (List (Text × NodeData)) → List (List (Text × NodeData))
    | [] => []
    | [] :: _ => [[]]
    | d :: ds => d :: upTo ds

/-- C70, why the first document has to be visible: each of these inputs, `&a` and `!!str`, loads as one document with an empty plain scalar. The
program succeeds, and its output is an empty line, which loads as no document at all. -/
theorem C70_violated :
    demoContent [38, 97] = [[(strTag, .scalar [] .plain)], []] ∧ demoContent [33, 33, 115, 116, 114] = [[(strTag, .scalar [] .plain)], []] ∧
    demoConvert {} [38, 97] 1000 (demoHeap 1000) = some (some (.done, [10]), [0]) ∧
    demoConvert {} [33, 33, 115, 116, 114] 1000 (demoHeap 1000) = some (some (.done, [10]), [0]) ∧ demoContent [10] = [[]] := by
  refine ⟨?_, ?_, ?_, ?_, ?_⟩ <;> decide +kernel

/- In canonical mode they survive, and so do later documents of this kind. -/
example : demoConvert { canonical := true } [38, 97] 1000 (demoHeap 1000) = some (some (.done, lit "---\n!!str \"\"\n".toList), [0]) := by decide +kernel
example : demoConvert {} [97, 10, 45, 45, 45, 32, 38, 97, 10] 1000 (demoHeap 1000) = some (some (.done, lit "a\n---\n".toList), [0]) := by decide +kernel

/- Why `KeptDoc` is needed: `!<%00> x` is refused by the emitter, `!a%2Cb x` is written as `!a,b x`. -/
example : demoConvert {} [33, 60, 37, 48, 48, 62, 32, 120, 10] 1000 (demoHeap 1000) = some (some (.emitter, []), [0]) := by decide +kernel
example : demoConvert {} [33, 97, 37, 50, 67, 98, 32, 120, 10] 1000 (demoHeap 1000) = some (some (.done, lit "!a,b x\n".toList), [0]) := by decide +kernel

/- The document of `demoInput` is `KeptDoc` and visible; its two entries are the same node. -/
def demoDoc : Doc :=
  { nodes := [{ tag := seqTag, data := .sequence [2, 2] .block, start := {}, stop := {} }, { tag := strTag, data := .scalar [0x78] .plain, start := {}, stop := {} }]
    startImplicit := true, endImplicit := true }

example : demoContent demoInput = [demoDoc.nodes.map fun nd => (nd.tag, nd.data), []] := by decide +kernel

example : KeptDoc demoDoc ∧ ¬ Invisible demoDoc := by
  refine ⟨⟨nofun, ?_, ?_, ?_⟩, ?_⟩
  · intro nd hnd
    rcases List.mem_cons.mp hnd with rfl | hnd
    · decide
    · rw [List.mem_singleton.mp hnd]; decide
  · have fits : ∀ {tag pfx r : Text}, tag = pfx ++ r → r = tag.drop pfx.length := by
      rintro _ _ _ rfl
      simp
    intro nd hnd t ht r hr
    obtain rfl := fits hr
    revert nd t
    decide
  · intro nd hnd v hv
    rcases List.mem_cons.mp hnd with rfl | hnd
    · cases hv
    · rw [List.mem_singleton.mp hnd] at hv; cases hv
  · rintro ⟨_, _, _, nd, st, h1, h2, h3, _⟩
    cases h1
    cases h3

end LibYaml
