import Verif.Proofs.CleanTokens
import Verif.Proofs.LoadParse
import Verif.Props.ParserHeap
import Verif.Props.LoaderHeap

/-!
# C65: parser and loader on one heap, from bytes

The tokens come from the scanner over the reader over a byte string (C56) or from any source of clean tokens (`CleanSrc`); the scanner's are clean
(`scanner_clean`). Heaps, allocation outcomes and numbers of calls are arbitrary.
-/

namespace LibYaml

open Spec

variable {ρ σ : Type}

theorem clean_readable {S : TokSrc σ} {x : σ} (h : CleanSrc S x) : ReadableSrc S x := by
  intro y t z hy hn
  have := h y t z hy hn
  revert this
  cases t.data with
  | tagDirective d => exact fun h => ⟨h.1, fun c hc => (h.2 c hc).2⟩
  | tag a s => exact fun h => ⟨h.1, fun c hc => (h.2 c hc).2⟩
  | _ => exact fun _ => trivial

theorem cutTok_clean {t : TokData} (h : CleanTok t) : cutTok t = t := by
  cases t with
  | tagDirective d => show TokData.tagDirective ⟨cutText d.handle, cutText d.pfx⟩ = _; rw [cut_of_ctext h.1.ctext, cut_of_ctext h.2]
  | tag a s => show TokData.tag (cutText a) (cutText s) = _; rw [cut_of_ctext h.1.ctext, cut_of_ctext h.2]
  | anchor a => show TokData.anchor (cutText a) = _; rw [cut_of_ctext (AnchorText.ctext h)]
  | «alias» a => show TokData.alias (cutText a) = _; rw [cut_of_ctext (AnchorText.ctext h)]
  | _ => rfl

/-- Nothing is cut from clean tokens. -/
theorem clean_sim {S : TokSrc σ} {x : σ} (h : CleanSrc S x) : Simulates S (cutSrc S) fun y z => z = y ∧ SrcReach S x y := by
  intro y y' hyz
  obtain ⟨hz, hy⟩ := hyz
  rw [hz]
  refine ⟨rfl, ?_⟩
  cases hn : S.next y with
  | error e =>
    have : (cutSrc S).next y = .error e := by unfold cutSrc; simp only [hn]
    rw [this]
  | ok r =>
    obtain ⟨t, z⟩ := r
    have : (cutSrc S).next y = .ok (t, z) := by
      unfold cutSrc
      simp only [hn]
      rw [cutTok_clean (h y _ z hy hn)]
    rw [this]
    exact ⟨rfl, rfl, hy.step hn⟩

theorem parseN_clean {S : TokSrc σ} {x : σ} (h : CleanSrc S x) {n : Int} {fuel k : Nat} {os : List POut} {q : Parser σ}
    (hv : parseN S n fuel k (Parser.init x) = .ok (os, q)) : parseN (cutSrc S) n fuel k (Parser.init x) = .ok (os, q) := by
  have := parseN_sim (clean_sim h) n fuel k (Parser.init x) x ⟨rfl, .refl⟩
  rw [hv] at this
  obtain ⟨_, ⟨rfl, _⟩, h2⟩ := this.ok
  exact h2

theorem loadN_clean {S : TokSrc σ} {x : σ} (h : CleanSrc S x) {room : Nat → Bool} {n : Int} {fuel m k : Nat} {os : List LOut} {q : Parser σ}
    (hv : loadN room S n fuel m k (Parser.init x) = .ok (os, q)) : loadN room (cutSrc S) n fuel m k (Parser.init x) = .ok (os, q) := by
  have := loadN_sim (clean_sim h) room n fuel m k (Parser.init x) x ⟨rfl, .refl⟩
  rw [hv] at this
  obtain ⟨_, ⟨rfl, _⟩, h2⟩ := this.ok
  exact h2

/-! ### The parser -/

/-- The event in the heap is exactly that event, and its blocks are `x`. -/
def Exactly (he : HPEvent) (ev : Event) (x : Blocks) : Prop := EventAt ev.data he.data x ∧ he.start = ev.start ∧ he.stop = ev.stop

/-- The scanner over the reader over a byte string. -/
abbrev byteSrc (o : Oracle) (f : Nat) (enc : Option Enc) (bytes : List UInt8) : HSrc (MemSrc (Scanner × RS)) :=
  memSrc (scannerSrc o f) ((scanStart enc bytes).scanner, (scanStart enc bytes).input)

/-- The bytes, the encoding and how the handler splits the bytes are arbitrary. Whatever the allocations do, any number of calls never runs into
undefined behaviour; the new blocks are those of the events returned so far (`x`) and those of the parser object (`b'`); and the events are those of
`parseBytes`, up to the first failure. The calls do what `parseBytes` does unless memory is lacking, which needs a failing allocation or a stack at its limit. -/
theorem C65_parse_bytes (o : Oracle) (maxLevel : Int) (enc : Option Enc) (bytes : List UInt8) (hsize : bytes.length < maxFileSize) (f fuel n : Nat)
    (hf : bytes.length + 3 < f) (hfuel : 4 * bytes.length + 7 < fuel) (h0 h : Heap) (hh : h.Fresh) (p : HPS (MemSrc (Scanner × RS))) (b : Blocks)
    (ho : Owns p { src := ((scanStart enc bytes).scanner, (scanStart enc bytes).input) } b) (hb : Adds h0 b h) :
    ∃ os p' h' vs q x b', hParseN (byteSrc o f enc bytes) maxLevel fuel n { st := p } h = .ok ((os, p'), h') ∧ h'.Fresh ∧
      parseBytes o maxLevel f fuel enc bytes n = .ok (vs, q) ∧ Follows Exactly os vs x ∧ Left p'.st b' ∧ Adds h0 (x ++ b') h' ∧
      ((os.map HOut.kind = vs.map POut.kind ∧ p'.error = q.error) ∨ (p'.error = some .memory ∧ ((∀ k, h.ok k = true) → Full p'.st))) := by
  obtain ⟨vs, q, hv, _⟩ := C56_parsing_is_total o maxLevel enc bytes hsize hf hfuel n
  have hc := scanner_clean o enc bytes hsize hf
  let _ : Strict := ⟨True⟩
  let _ : SrcInv (Scanner × RS) := ⟨SrcReach (scannerSrc o f) ((scanStart enc bytes).scanner, (scanStart enc bytes).input)⟩
  obtain ⟨os, p', h', x, b', k1, k2, k3, k4⟩ :=
    calls_core (mem_link (reach_keeps (clean_readable hc) (fun _ => hc)) _) hh (ho.own SrcReach.refl rfl) hb (parseN_clean hc hv)
  exact ⟨os, p', h', vs, q, x, b', k1, k2, hv, k3.mono fun he ev x hx => ⟨(hx.2 trivial).1, by
    obtain ⟨⟨E, _, _, j1, j2⟩, _⟩ := hx
    exact ⟨j1, j2⟩⟩, k4⟩

/-- Initialize a parser for a byte string, call it any number of times, delete it, delete the events: the heap is as it was, whatever the allocations do. -/
theorem C65_parse_history (o : Oracle) (maxLevel : Int) (enc : Option Enc) (bytes : List UInt8) (hsize : bytes.length < maxFileSize) (f fuel n : Nat)
    (hf : bytes.length + 3 < f) (hfuel : 4 * bytes.length + 7 < fuel) (h : Heap) (hh : h.Fresh) :
    ∃ r h', parseSession (byteSrc o f enc bytes) maxLevel fuel n h = .ok (r, h') ∧ h'.mem = h.mem ∧
      (r = none → ¬ ∀ k, h.ok k = true) ∧ ∀ (os : List HOut) (p : HPar (MemSrc (Scanner × RS))), r = some (os, p) →
        ∃ (vs : List POut) (q : Parser (Scanner × RS)), parseBytes o maxLevel f fuel enc bytes n = .ok (vs, q) ∧
          ((os.map HOut.kind = vs.map POut.kind ∧ p.error = q.error) ∨ (p.error = some .memory ∧ ((∀ k, h.ok k = true) → Full p.st))) := by
  obtain ⟨vs, q, hv, _⟩ := C56_parsing_is_total o maxLevel enc bytes hsize hf hfuel n
  have hc := scanner_clean o enc bytes hsize hf
  let _ : Strict := ⟨True⟩
  let _ : SrcInv (Scanner × RS) := ⟨SrcReach (scannerSrc o f) ((scanStart enc bytes).scanner, (scanStart enc bytes).input)⟩
  obtain ⟨r, h', h1, h2, h3, h4⟩ :=
    history_core (mem_link (reach_keeps (clean_readable hc) (fun _ => hc)) _) (mem_starts SrcReach.refl) hh (parseN_clean hc hv)
  exact ⟨r, h', h1, h2, h3, fun os p hr => ⟨vs, q, hv, h4 os p hr⟩⟩

/-! ### The loader -/

/-- Load `k` documents, or until a call fails: the documents, and whether all calls succeeded. -/
def lLoads (H : HSrc ρ) (maxLevel : Int) (fuel m : Nat) : Nat → HLPar ρ → HM (List HDoc × Bool × HLPar ρ)
  | 0, p => return ([], true, p)
  | k + 1, p => do
    let (ok, d, p) ← lLoad H maxLevel fuel m p
    if ok then do
      let (ds, ok, p) ← lLoads H maxLevel fuel m k p
      return (d :: ds, ok, p)
    else return ([], false, p)

/-- The documents up to the first failure. -/
def docsOf : List LOut → List Doc
  | .doc d :: os => d :: docsOf os
  | _ => []

/-- Documents, the documents in the heap, and their blocks. -/
inductive LoadedAt : List Doc → List HDoc → Blocks → Prop
  | nil : LoadedAt [] [] []
  | cons {d hd b ds hds bs} : DocAt d hd b → LoadedAt ds hds bs → LoadedAt (d :: ds) (hd :: hds) (b ++ bs)

/-- The parser has been given its input and the loader has not failed. -/
def LoadsPost [SrcMem ρ] (A : Prop) (base : Nat → Option Obj) (m : Nat) (os : List LOut) (bs : Blocks) (r : List HDoc × Bool × HLPar ρ) (h : Heap) : Prop :=
  ∃ ds b leak pb, ds <+: docsOf os ∧ LoadedAt ds r.1 b ∧ Left r.2.2.par.st pb ∧ r.2.2.aliases = {} ∧ Lost leak ∧ Ext A base (b ++ (leak ++ (pb ++ bs))) h ∧
    (r.2.1 = true → leak = [] ∧ .failed ∉ os ∧ ds = docsOf os) ∧ (A → AtLimit (2 * m) r.2.2.par.st ∨ (leak = [] ∧ ds = docsOf os ∧ (r.2.1 = false → .failed ∈ os)))

theorem hw_lLoads [SrcMem ρ] [SrcLink ρ σ] [Strict] {A : Prop} {base : Nat → Option Obj} {bs : Blocks} {h : Heap} {H : HSrc ρ} {S : TokSrc σ} (hS : Link H S) (hstrict : Strict.strict)
    {maxLevel : Int} {fuel m j k : Nat} {p : HLPar ρ} {q q' : Parser σ} {pb : Blocks} {os : List LOut} (e : Ext A base (pb ++ bs) h)
    (has : p.aliases = {}) (hb : Both p.par q pb) (hv : loadN roomy (cutSrc S) maxLevel fuel m j q = .ok (os, q')) (hj : j ≤ k) (hjk : j = k ∨ .failed ∈ os) :
    hw (lLoads H maxLevel fuel m k p) (LoadsPost A base m os bs) h := by
  induction k generalizing j p q pb os bs h with
  | zero =>
    obtain rfl : j = 0 := by omega
    cases hv
    exact ⟨[], [], [], pb, List.prefix_refl _, .nil, hb.own.left, has, .inl rfl, e, fun _ => ⟨rfl, by simp, rfl⟩, fun _ => .inr ⟨rfl, rfl, nofun⟩⟩
  | succ k ih =>
    cases j with
    | zero =>
      cases hv
      rcases hjk with h | h <;> cases h
    | succ j =>
      unfold loadN at hv
      cases hl : load roomy (cutSrc S) maxLevel fuel m q with
      | error er => rw [hl] at hv; cases hv
      | ok r =>
      obtain ⟨o, q1⟩ := r
      simp only [hl] at hv
      cases hl2 : loadN roomy (cutSrc S) maxLevel fuel m j q1 with
      | error er => rw [hl2] at hv; cases hv
      | ok r =>
      obtain ⟨os', q2⟩ := r
      simp only [hl2] at hv
      cases hv
      unfold lLoads
      rw [hw_bind]
      refine hw_lLoad hS hstrict e has hb hl (fun g leak p' pb' k1 k2 k3 k4 => ?_) (fun g d hd b' p' pb' k1 k2 _ k3 k4 => ?_)
      · dsimp only
        rw [if_neg (by simp), hw_pure]
        refine ⟨[], [], leak, pb', List.nil_prefix, .nil, k1, rfl, k3, k2, nofun, fun a => (k4 a).imp_right fun hh => ?_⟩
        obtain ⟨rfl, rfl⟩ := hh
        exact ⟨rfl, rfl, fun _ => List.mem_cons_self⟩
      · subst k1
        dsimp only
        rw [if_pos rfl, hw_bind]
        refine hw_mono (ih (bs := b' ++ bs) (j := j) (k4.perm (by blocks)) rfl k3 hl2 (by omega) (by
          rcases hjk with hh | hh
          · exact .inl (by omega)
          · rcases List.mem_cons.mp hh with hh | hh
            · cases hh
            · exact .inr hh)) fun r g hr => ?_
        obtain ⟨hds, ok, p2⟩ := r
        obtain ⟨ds, b, leak, pb2, j1, j2, j3, j4, j5, j6, j7, j8⟩ := hr
        refine ⟨d :: ds, b' ++ b, leak, pb2, (List.prefix_cons_inj d).mpr j1, .cons k2 j2, j3, j4, j5, j6.perm (by blocks), fun hh => ?_, fun a => (j8 a).imp_right fun hh => ?_⟩
        · obtain ⟨i1, i2, i3⟩ := j7 hh
          exact ⟨i1, by simp only [List.mem_cons, reduceCtorEq, false_or]; exact i2, by rw [i3]; rfl⟩
        · obtain ⟨i1, i2, i3⟩ := hh
          exact ⟨i1, by rw [i2]; rfl, fun h => List.mem_cons_of_mem _ (i3 h)⟩

def deleteDocs : List HDoc → HM Unit
  | [] => return ()
  | d :: ds => do
    documentDelete d
    deleteDocs ds

theorem hw_deleteDocs {A : Prop} {base : Nat → Option Obj} {ds : List Doc} {hds : List HDoc} {b bs : Blocks} {h : Heap} {Q : Unit → Heap → Prop} (hd : LoadedAt ds hds b)
    (e : Ext A base (b ++ bs) h) (hQ : ∀ h', Ext A base bs h' → Q () h') : hw (deleteDocs hds) Q h := by
  induction hd generalizing h with
  | nil => exact hQ h e
  | cons k1 _ ih =>
    unfold deleteDocs
    rw [hw_bind]
    exact hw_documentDelete (e.perm (by blocks)) k1 fun g e2 => ih e2

/-- Loading from a parser that was initialized, with tokens of a clean source, never runs into undefined behaviour, whatever the allocations do. The
documents are the first of those that the model on values loads (`ds`); the new blocks are those of the documents (`x`), of the parser object (`b'`),
and at most those of `Lost`. If all calls succeed nothing is lost. If all allocations succeed the calls do what they do on values and nothing is lost,
unless a stack is at its limit. -/
theorem C65_loads {S : TokSrc σ} (maxLevel : Int) (fuel m j k : Nat) (src : σ) (hC : CleanSrc S src) {os : List LOut} {q : Parser σ}
    (hv : loadN roomy S maxLevel fuel m j (Parser.init src) = .ok (os, q)) (hj : j ≤ k) (hjk : j = k ∨ .failed ∈ os) (h0 h : Heap) (hf : h.Fresh)
    (p : HPS (MemSrc σ)) (b : Blocks) (ho : Owns p { src := src } b) (hb : Adds h0 b h) :
    ∃ hds ok p' h' ds x leak b', lLoads (memSrc S src) maxLevel fuel m k { par := { st := p } } h = .ok ((hds, ok, p'), h') ∧ h'.Fresh ∧ ds <+: docsOf os ∧
      LoadedAt ds hds x ∧ Left p'.par.st b' ∧ Lost leak ∧ Adds h0 (x ++ (leak ++ b')) h' ∧
      (ok = true → leak = [] ∧ .failed ∉ os ∧ ds = docsOf os) ∧
      ((∀ k, h.ok k = true) → AtLimit (2 * m) p'.par.st ∨ (leak = [] ∧ ds = docsOf os ∧ (ok = false → .failed ∈ os))) := by
  let inst : SrcInv σ := ⟨SrcReach S src⟩
  let _ : Strict := ⟨True⟩
  have hk : Link (memSrc S src) S := mem_link (reach_keeps (clean_readable hC) (fun _ => hC)) src
  have e : Ext (∀ k, h.ok k = true) h0.mem (b ++ []) h := by
    rw [List.append_nil]
    exact ⟨hb.cells, hb.distinct, hb.unused, hf, fun x => x⟩
  obtain ⟨r, h', hr, ds, x, leak, pb, k1, k2, k3, _, k4, k5, k6, k7⟩ :=
    hw_out (hw_lLoads hk trivial (p := { par := { st := p } }) e rfl ⟨rfl, rfl, ho.own SrcReach.refl rfl, .inr (init_einv src)⟩ (loadN_clean hC hv) hj hjk)
  obtain ⟨hds, ok, p'⟩ := r
  rw [List.append_nil] at k5
  exact ⟨hds, ok, p', h', ds, x, leak, pb, hr, k5.fresh, k1, k2, k3, k4, ⟨k5.cells, k5.keys, k5.sep⟩, k6, k7⟩

/-- Initialize a parser, load `k` documents, delete the parser, delete the documents. -/
def loadSession (H : HSrc ρ) (maxLevel : Int) (fuel m k : Nat) : HM (Option (List HDoc × Bool × HLPar ρ)) := do
  let (ok, p) ← hParserInit H
  if ok then do
    let (ds, ok, p) ← lLoads H maxLevel fuel m k { par := { st := p } }
    hParserDelete H p.par.st
    deleteDocs ds
    return some (ds, ok, p)
  else return none

/-- Whole histories, compared with calls on values. -/
theorem load_history_core [SrcMem ρ] [SrcLink ρ σ] [Strict] (hstrict : Strict.strict) {H : HSrc ρ} {S : TokSrc σ} (hk : Link H S) (maxLevel : Int)
    (fuel m j k : Nat) {src : σ} (hs : SrcStarts H src) {os : List LOut} {q : Parser σ}
    (hv : loadN roomy (cutSrc S) maxLevel fuel m j (Parser.init src) = .ok (os, q)) (hj : j ≤ k) (hjk : j = k ∨ .failed ∈ os) (h : Heap) (hf : h.Fresh) :
    ∃ r h' leak, loadSession H maxLevel fuel m k h = .ok (r, h') ∧ Lost leak ∧ Adds h leak h' ∧
      (∀ hds p, r = some (hds, true, p) → h'.mem = h.mem) ∧
      ((∀ k, h.ok k = true) → ∃ hds ok p, r = some (hds, ok, p) ∧
        (AtLimit (2 * m) p.par.st ∨ (h'.mem = h.mem ∧ hds.length = (docsOf os).length ∧ (ok = true ↔ .failed ∉ os)))) := by
  have key : hw (loadSession H maxLevel fuel m k) (fun r h' => ∃ leak, Lost leak ∧ Ext (∀ k, h.ok k = true) h.mem leak h' ∧
      (∀ hds p, r = some (hds, true, p) → leak = []) ∧
      ((∀ k, h.ok k = true) → ∃ hds ok p, r = some (hds, ok, p) ∧
        (AtLimit (2 * m) p.par.st ∨ (leak = [] ∧ hds.length = (docsOf os).length ∧ (ok = true ↔ .failed ∉ os))))) h := by
    unfold loadSession
    rw [hw_bind]
    refine hw_parserInit hs (bs := []) (Ext.start hf (fun (x : ∀ k, h.ok k = true) => x)) (fun h' p e ha => ?_) (fun h' p b ho e => ?_)
    · dsimp only
      rw [if_neg (by simp), hw_pure]
      exact ⟨[], .inl rfl, e, (fun _ _ hh => by cases hh), fun a => absurd a ha⟩
    · dsimp only
      rw [if_pos rfl, hw_bind]
      refine hw_mono (hw_lLoads hk hstrict (p := { par := { st := p } }) e rfl ⟨rfl, rfl, ho, .inr (init_einv src)⟩ hv hj hjk) fun r g hr => ?_
      obtain ⟨hds, ok, p'⟩ := r
      obtain ⟨ds, x, leak, pb, k1, k2, k3, _, k4, k5, k6, k7⟩ := hr
      dsimp only
      rw [hw_bind]
      refine hw_parserDelete hs.toSrcCloses (fr := x ++ leak) k3 (k5.perm (by blocks)) fun h2 e2 => ?_
      rw [hw_bind]
      refine hw_deleteDocs k2 e2 fun h3 e3 => ?_
      rw [hw_pure]
      have hlen : ∀ {ds hds x}, LoadedAt ds hds x → hds.length = ds.length := by
        intro ds hds x hd
        induction hd with
        | nil => rfl
        | cons _ _ ih => simp only [List.length_cons, ih]
      refine ⟨leak, k4, e3, fun hds p hh => ?_, fun a => ⟨hds, ok, p', rfl, (k7 a).imp_right fun ⟨i1, i2, i3⟩ => ⟨i1, by rw [hlen k2, i2], fun hh => (k6 hh).2.1, fun hh => ?_⟩⟩⟩
      · cases hh
        exact (k6 rfl).1
      · cases ok with
        | true => rfl
        | false => exact absurd (i3 rfl) hh
  obtain ⟨r, h', hr, leak, h1, h2, h3, h4⟩ := hw_out key
  refine ⟨r, h', leak, hr, h1, ⟨h2.cells, h2.keys, h2.sep⟩, fun hds p hh => ?_, fun a => ?_⟩
  · obtain rfl := h3 hds p hh
    exact h2.done
  · obtain ⟨hds, ok, p, i1, i2⟩ := h4 a
    refine ⟨hds, ok, p, i1, i2.imp_right fun ⟨i3, i4⟩ => ⟨?_, i4⟩⟩
    subst i3
    exact h2.done

/-- Whole histories: the parser can be deleted after any number of calls, also after a failure; the documents outlive it; when they are deleted too, the
heap is as it was up to the blocks of `Lost`. Nothing is freed twice and nothing dangling is used. If all calls succeed, or all allocations
succeed and no stack is at its limit, nothing leaks. -/
theorem C65_load_history {S : TokSrc σ} (maxLevel : Int) (fuel m j k : Nat) (src : σ) (hC : CleanSrc S src) {os : List LOut} {q : Parser σ}
    (hv : loadN roomy S maxLevel fuel m j (Parser.init src) = .ok (os, q)) (hj : j ≤ k) (hjk : j = k ∨ .failed ∈ os) (h : Heap) (hf : h.Fresh) :
    ∃ r h' leak, loadSession (memSrc S src) maxLevel fuel m k h = .ok (r, h') ∧ Lost leak ∧ Adds h leak h' ∧
      (∀ hds p, r = some (hds, true, p) → h'.mem = h.mem) ∧
      ((∀ k, h.ok k = true) → ∃ hds ok p, r = some (hds, ok, p) ∧
        (AtLimit (2 * m) p.par.st ∨ (h'.mem = h.mem ∧ hds.length = (docsOf os).length ∧ (ok = true ↔ .failed ∉ os)))) := by
  let inst : SrcInv σ := ⟨SrcReach S src⟩
  let _ : Strict := ⟨True⟩
  exact load_history_core trivial (mem_link (reach_keeps (clean_readable hC) (fun _ => hC)) src) maxLevel fuel m j k (mem_starts SrcReach.refl) (loadN_clean hC hv) hj hjk h hf

/-- The same for every byte string, encoding and handler. -/
theorem C65_load_bytes (o : Oracle) (maxLevel : Int) (enc : Option Enc) (bytes : List UInt8) (hsize : bytes.length < maxFileSize) (f fuel m k : Nat)
    (hf : bytes.length + 3 < f) (hfuel : 4 * bytes.length + 7 < fuel) (hm : 16 * bytes.length + 28 < m) (h : Heap) (hh : h.Fresh) :
    ∃ j os q r h' leak, j ≤ k ∧ loadBytes roomy o maxLevel f fuel m enc bytes j = .ok (os, q) ∧ (j = k ∨ .failed ∈ os) ∧
      loadSession (byteSrc o f enc bytes) maxLevel fuel m k h = .ok (r, h') ∧ Lost leak ∧ Adds h leak h' ∧
      (∀ hds p, r = some (hds, true, p) → h'.mem = h.mem) ∧
      ((∀ k, h.ok k = true) → ∃ hds ok p, r = some (hds, ok, p) ∧
        (AtLimit (2 * m) p.par.st ∨ (h'.mem = h.mem ∧ hds.length = (docsOf os).length ∧ (ok = true ↔ .failed ∉ os)))) := by
  obtain ⟨j, os, q, hj, hv, hjk⟩ := C56_loading_is_total roomy o maxLevel enc bytes hsize hf hfuel hm k
  obtain ⟨r, h', leak, h1, h2, h3, h4, h5⟩ := C65_load_history maxLevel fuel m j k _ (scanner_clean o enc bytes hsize hf) hv hj hjk h hh
  exact ⟨j, os, q, r, h', leak, hj, hv, hjk, h1, h2, h3, h4, h5⟩

/-! ### A run -/

/-- The number of documents, whether the calls succeeded, and the blocks in use at the end. -/
def demoLoads (bytes : List UInt8) (h : Heap) : Option (Option (Nat × Bool) × List Nat) :=
  match loadSession (byteSrc (fun _ => some 7) 30 none bytes) 1000 60 200 3 h with
  | .ok (r, h) => some (r.map fun r => (r.1.length, r.2.1), (List.range 80).filter fun p => (h.mem p).isSome)
  | .error _ => none

/- `&a [b]` -/
example : demoLoads [38, 97, 32, 91, 98, 93] (demoHeap 100) = some (some (3, true), [0]) := by decide +kernel
/- Of the first allocations, none may fail if three calls are to succeed; one after a failure leaves the heap as it was, too. -/
example : ∀ k, k < 21 → 8 ≤ k → (demoLoads [38, 97, 32, 91, 98, 93] (demoHeap k)).map (fun r => (r.1.map Prod.snd, r.2)) = some (some false, [0]) := by decide +kernel

/-- `%YAML 1.1` and `--- a`. -/
def demoBytes : List UInt8 := [37, 89, 65, 77, 76, 32, 49, 46, 49, 10, 45, 45, 45, 32, 97]

/-- The leak of `C62_violated` from bytes: without memory for the stack of aliases (allocation 15) the version directive is lost (block 11). -/
theorem C65_leak : demoLoads demoBytes (demoHeap 15) = some (some (0, false), [0, 11]) := by decide +kernel

example : demoLoads demoBytes (demoHeap 100) = some (some (3, true), [0]) := by decide +kernel

end LibYaml
