import Verif.Proofs.ParserHeapMem
import Verif.Proofs.ParserFuel
import Verif.Props.EventApi
import Verif.Props.Parser

/-!
# C64: the memory of the parser

Heaps, allocation outcomes, tokens and numbers of calls are arbitrary. The tokens come from a source `S` that allocates their strings; `cutSrc S` are
the same tokens without what is behind a NUL in anchors, tags and directives (a tag can have one: `%00`). The claims compare the parser on the heap
with the parser on values (`Model/Parser.lean`) that reads `cutSrc S`.
-/

namespace LibYaml

open Spec

variable {ρ σ : Type}

theorem cutSrc_safe {S : TokSrc σ} (hS : S.Safe) : (cutSrc S).Safe := by
  intro x e h
  unfold cutSrc at h
  simp only at h
  cases hn : S.next x with
  | error e' =>
    rw [hn] at h
    cases h
    exact hS x _ hn
  | ok r => rw [hn] at h; cases h

/-- With enough fuel the parser on values is defined. -/
theorem parseN_defined {S : TokSrc σ} (hS : S.Safe) {n : Int} {fuel k : Nat} {x : σ} (hf : parseN S n fuel k (Parser.init x) ≠ .error .fuel) :
    ∃ vs q, parseN S n fuel k (Parser.init x) = .ok (vs, q) := by
  have hu := C26_no_underflow hS n fuel k x
  have key : ∀ (k : Nat) (p : Parser σ) e, parseN S n fuel k p = .error e → e = .ub ∨ e = .fuel := by
    intro k
    induction k with
    | zero => intro p e h; cases h
    | succ k ih =>
      intro p e h
      unfold parseN at h
      cases h1 : parse S n fuel p with
      | error e1 =>
        rw [h1] at h
        cases h
        unfold parse at h1
        split at h1
        · cases h1
        · split at h1 <;> cases h1
          · exact .inl rfl
          · exact .inr rfl
      | ok r =>
        obtain ⟨o, p1⟩ := r
        simp only [h1] at h
        cases h2 : parseN S n fuel k p1 with
        | error e2 =>
          rw [h2] at h
          cases h
          exact ih p1 e h2
        | ok r2 => rw [h2] at h; cases h
  cases hr : parseN S n fuel k (Parser.init x) with
  | ok r => exact ⟨r.1, r.2, rfl⟩
  | error e =>
    rcases key k _ e hr with rfl | rfl
    · exact absurd hr hu
    · exact absurd hr hf

/-- A source that ends delivers enough for every number of calls with this fuel, so the hypothesis of the following theorems is met. -/
theorem C64_fuel {S : TokSrc σ} {left : σ → Nat} (hB : Bounded S left) (maxLevel : Int) (fuel n : Nat) (src : σ) (hf : left src + 1 < fuel) :
    parseN (cutSrc S) maxLevel fuel n (Parser.init src) ≠ .error .fuel := by
  have hC : Bounded (cutSrc S) left := by
    have key : ∀ x t y, (cutSrc S).next x = .ok (t, y) → ∃ t', S.next x = .ok (t', y) ∧ t.data = cutTok t'.data := by
      intro x t y h
      unfold cutSrc at h
      simp only at h
      cases hn : S.next x with
      | error e => rw [hn] at h; cases h
      | ok r => rw [hn] at h; cases h; exact ⟨r.1, rfl, rfl⟩
    refine ⟨fun x e h => ?_, fun x t y h => ?_, fun x t y h ht => ?_⟩
    · unfold cutSrc at h
      simp only at h
      cases hn : S.next x with
      | error e' => rw [hn] at h; cases h; exact hB.error x _ hn
      | ok r => rw [hn] at h; cases h
    · obtain ⟨t', h1, _⟩ := key x t y h
      exact hB.le x t' y h1
    · obtain ⟨t', h1, h2⟩ := key x t y h
      exact hB.lt x t' y h1 fun hx => ht (by rw [h2, hx]; rfl)
  exact nf_parseN hC maxLevel fuel n _ _ (Nat.le_refl _) hf

/-- The parser on the heap, the parser on values, and the blocks that the former owns, without an invariant of the source. -/
def Owns (p : HPS (MemSrc σ)) (s : PS σ) (b : Blocks) : Prop :=
  letI : SrcInv σ := ⟨fun _ => True⟩
  letI : Strict := ⟨False⟩
  Own p s b

theorem Own.owns [SrcInv σ] [Strict] {p : HPS (MemSrc σ)} {s : PS σ} {b : Blocks} (h : Own p s b) : Owns p s b := by
  obtain ⟨x1, x2, x3, x4, x5, k1, k2, k3, k4, k5, k6, k8⟩ := h
  refine ⟨x1, x2, x3, x4, x5, k1, k2, k3, ?_, ⟨k5.1, trivial, k5.2.2⟩, k6, k8⟩
  cases ha : s.avail with
  | none => rw [ha] at k4; exact k4
  | some t =>
    rw [ha] at k4
    obtain ⟨ht, j1, d, j2, j3, j4⟩ := k4
    exact ⟨ht, j1, d, j2, ⟨j3.1, (fun hx => hx.elim)⟩, j4⟩

theorem Owns.own [SrcInv σ] [Strict] {p : HPS (MemSrc σ)} {s : PS σ} {b : Blocks} (h : Owns p s b) (hg : SrcInv.good s.src) (ha : s.avail = none) : Own p s b := by
  obtain ⟨x1, x2, x3, x4, x5, k1, k2, k3, k4, k5, k6, k8⟩ := h
  refine ⟨x1, x2, x3, x4, x5, k1, k2, k3, ?_, ⟨k5.1, hg, k5.2.2⟩, k6, k8⟩
  rw [ha] at k4 ⊢
  exact k4

theorem reach_keeps [i : Strict] {S : TokSrc σ} {x : σ} (h : ReadableSrc S x) (hc : i.strict → CleanSrc S x) : @KeepsSrc σ ⟨SrcReach S x⟩ i S :=
  fun y t z hy hn => ⟨⟨h y t z hy hn, fun hs => hc hs y t z hy hn⟩, hy.step hn⟩

/-- `yaml_parser_initialize` never runs into undefined behaviour. If it fails, it leaves the heap as it was, and some allocation failed. -/
theorem C64_init (S : TokSrc σ) (src : σ) (h : Heap) (hf : h.Fresh) :
    ∃ ok p h', hParserInit (memSrc S src) h = .ok ((ok, p), h') ∧ h'.Fresh ∧ (ok = false → h'.mem = h.mem) ∧ ((∀ k, h.ok k = true) → ok = true) ∧
      (ok = true → ∃ b, Owns p { src := src } b ∧ Adds h b h') := by
  let _ : SrcInv σ := ⟨fun _ => True⟩
  let _ : Strict := ⟨False⟩
  obtain ⟨r, h', hr, h1, h2, h3, h4⟩ := hw_out (hw_parserInit (mem_starts (S := S) (src := src) trivial) (bs := []) (Ext.start hf (fun (x : ∀ k, h.ok k = true) => x))
    (Q := fun r h' => h'.Fresh ∧ (r.1 = false → h'.mem = h.mem) ∧ ((∀ k, h.ok k = true) → r.1 = true) ∧
      (r.1 = true → ∃ b, Owns r.2 { src := src } b ∧ Adds h b h'))
    (fun h' p e ha => ⟨e.fresh, fun _ => e.done, fun a => absurd a ha, fun hx => by cases hx⟩)
    (fun h' p b ho e => by
      rw [List.append_nil] at e
      exact ⟨e.fresh, (fun hx => by cases hx), fun _ => rfl, fun _ => ⟨b, ho, e.cells, e.keys, e.sep⟩⟩))
  exact ⟨r.1, r.2, h', hr, h1, h2, h3, h4⟩

/-- Calls after the initialization, compared with calls on values. -/
theorem calls_core [SrcMem ρ] [SrcLink ρ σ] [Strict] {H : HSrc ρ} {S : TokSrc σ} (hk : Link H S) {maxLevel : Int} {fuel n : Nat} {src : σ} {h0 h : Heap} (hf : h.Fresh)
    {p : HPS ρ} {b : Blocks} (ho : Own p { src := src } b) (hb : Adds h0 b h) {vs : List POut} {q : Parser σ}
    (hv : parseN (cutSrc S) maxLevel fuel n (Parser.init src) = .ok (vs, q)) :
    ∃ os p' h' x b', hParseN H maxLevel fuel n { st := p } h = .ok ((os, p'), h') ∧ h'.Fresh ∧ Follows EvGood os vs x ∧ Left p'.st b' ∧
      Adds h0 (x ++ b') h' ∧
      ((os.map HOut.kind = vs.map POut.kind ∧ p'.error = q.error) ∨ (p'.error = some .memory ∧ ((∀ k, h.ok k = true) → Full p'.st))) := by
  have e : Ext (∀ k, h.ok k = true) h0.mem (b ++ []) h := by
    rw [List.append_nil]
    exact ⟨hb.cells, hb.distinct, hb.unused, hf, fun x => x⟩
  obtain ⟨r, h', hr, x, b', k1, k2, k3, k4⟩ :=
    hw_out (hw_parseN hk (p := { st := p }) (q := Parser.init src) ⟨rfl, rfl, ho, .inr (init_einv src)⟩ e hv)
  rw [List.append_nil] at k3
  exact ⟨r.1, r.2, h', x, b', hr, k3.fresh, k1, k2, ⟨k3.cells, k3.keys, k3.sep⟩, k4⟩

/-- From a parser that was initialized, any number of calls never run into undefined behaviour, whatever the allocations do. The new blocks are those of
the events returned so far (`x`) and those of the parser object (`b`), also after a failure. The events are those of the parser on values, up to
the first failure. The calls do what they do on values unless memory is lacking, which needs a failing allocation or a stack at its limit. -/
theorem C64_calls {S : TokSrc σ} (hS : S.Safe) (maxLevel : Int) (fuel n : Nat) (src : σ) (hR : ReadableSrc S src) (h0 h : Heap) (hf : h.Fresh)
    (p : HPS (MemSrc σ)) (b : Blocks)
    (ho : Owns p { src := src } b) (hb : Adds h0 b h) (hfuel : parseN (cutSrc S) maxLevel fuel n (Parser.init src) ≠ .error .fuel) :
    ∃ os p' h' vs q x b', hParseN (memSrc S src) maxLevel fuel n { st := p } h = .ok ((os, p'), h') ∧ h'.Fresh ∧
      parseN (cutSrc S) maxLevel fuel n (Parser.init src) = .ok (vs, q) ∧ Follows EvAt os vs x ∧ Left p'.st b' ∧ Adds h0 (x ++ b') h' ∧
      ((os.map HOut.kind = vs.map POut.kind ∧ p'.error = q.error) ∨ (p'.error = some .memory ∧ ((∀ k, h.ok k = true) → Full p'.st))) := by
  obtain ⟨vs, q, hv⟩ := parseN_defined (cutSrc_safe hS) hfuel
  let _ : Strict := ⟨False⟩
  let _ : SrcInv σ := ⟨SrcReach S src⟩
  obtain ⟨os, p', h', x, b', k1, k2, k3, k4⟩ :=
    calls_core (mem_link (reach_keeps hR (fun (hx : False) => hx.elim)) src) hf (ho.own SrcReach.refl rfl) hb hv
  exact ⟨os, p', h', vs, q, x, b', k1, k2, hv, k3.mono fun _ _ _ hx => hx.1, k4⟩

/-- Initialize a parser, call it `n` times, delete it, and delete the events: the outcomes and the recorded error, or nothing if there is no parser. -/
def parseSession (H : HSrc ρ) (maxLevel : Int) (fuel n : Nat) : HM (Option (List HOut × HPar ρ)) := do
  let (ok, p) ← hParserInit H
  if ok then do
    let (os, p) ← hParseN H maxLevel fuel n { st := p }
    hParserDelete H p.st
    hDeleteEvents os
    return some (os, p)
  else return none

/-- Whole histories, compared with calls on values. -/
theorem history_core [SrcMem ρ] [SrcLink ρ σ] [Strict] {H : HSrc ρ} {S : TokSrc σ} (hk : Link H S) {maxLevel : Int} {fuel n : Nat} {src : σ} (hs : SrcStarts H src)
    {h : Heap} (hf : h.Fresh) {vs : List POut} {q : Parser σ} (hv : parseN (cutSrc S) maxLevel fuel n (Parser.init src) = .ok (vs, q)) :
    ∃ r h', parseSession H maxLevel fuel n h = .ok (r, h') ∧ h'.mem = h.mem ∧
      (r = none → ¬ ∀ k, h.ok k = true) ∧ ∀ (os : List HOut) (p : HPar ρ), r = some (os, p) →
        (os.map HOut.kind = vs.map POut.kind ∧ p.error = q.error) ∨ (p.error = some .memory ∧ ((∀ k, h.ok k = true) → Full p.st)) := by
  refine hw_out (Q := fun r h' => h'.mem = h.mem ∧
      (r = none → ¬ ∀ k, h.ok k = true) ∧ ∀ (os : List HOut) (p : HPar ρ), r = some (os, p) →
        (os.map HOut.kind = vs.map POut.kind ∧ p.error = q.error) ∨ (p.error = some .memory ∧ ((∀ k, h.ok k = true) → Full p.st))) ?_
  unfold parseSession
  rw [hw_bind]
  refine hw_parserInit hs (bs := []) (Ext.start hf (fun (x : ∀ k, h.ok k = true) => x)) (fun h' p e ha => ?_) (fun h' p b ho e => ?_)
  · simp only
    rw [if_neg (by simp)]
    exact ⟨e.done, fun _ => ha, fun _ _ hx => by cases hx⟩
  · simp only
    rw [if_pos trivial, hw_bind]
    refine hw_mono (hw_parseN hk (p := { st := p }) (q := Parser.init src) ⟨rfl, rfl, ho, .inr (init_einv src)⟩ e hv) fun r h1 hr => ?_
    obtain ⟨os, p1⟩ := r
    obtain ⟨x, b', k1, k2, k3, k4⟩ := hr
    simp only
    rw [hw_bind]
    refine hw_parserDelete hs.toSrcCloses (fr := x ++ []) k2 (k3.perm (by blocks)) fun h2 e2 => ?_
    rw [hw_bind]
    exact hw_deleteEvents (k1.mono fun _ _ _ hx => hx.1) e2 fun h3 e3 => ⟨e3.done, (fun hx => by cases hx), fun _ _ hx => by cases hx; exact k4⟩

/-- Whole histories: the parser can be deleted after any number of calls, also after a failure; the events outlive it; and when they are deleted too,
the heap is as it was. Nothing is freed twice, nothing dangling is used, nothing leaks, whatever the allocations do. The outcomes are those on values unless
memory is lacking. -/
theorem C64_history {S : TokSrc σ} (hS : S.Safe) (maxLevel : Int) (fuel n : Nat) (src : σ) (hR : ReadableSrc S src) (h : Heap) (hf : h.Fresh)
    (hfuel : parseN (cutSrc S) maxLevel fuel n (Parser.init src) ≠ .error .fuel) :
    ∃ r h', parseSession (memSrc S src) maxLevel fuel n h = .ok (r, h') ∧ h'.mem = h.mem ∧
      (r = none → ¬ ∀ k, h.ok k = true) ∧ ∀ (os : List HOut) (p : HPar (MemSrc σ)), r = some (os, p) →
        ∃ (vs : List POut) (q : Parser σ), parseN (cutSrc S) maxLevel fuel n (Parser.init src) = .ok (vs, q) ∧
          ((os.map HOut.kind = vs.map POut.kind ∧ p.error = q.error) ∨ (p.error = some .memory ∧ ((∀ k, h.ok k = true) → Full p.st))) := by
  obtain ⟨vs, q, hv⟩ := parseN_defined (cutSrc_safe hS) hfuel
  let _ : Strict := ⟨False⟩
  let _ : SrcInv σ := ⟨SrcReach S src⟩
  obtain ⟨r, h', h1, h2, h3, h4⟩ := history_core (mem_link (reach_keeps hR (fun (hx : False) => hx.elim)) src) (mem_starts SrcReach.refl) hf hv
  exact ⟨r, h', h1, h2, h3, fun os p hr => ⟨vs, q, hv, h4 os p hr⟩⟩

/-! ### A run -/

/-- `%TAG !e! x` `--- {? !e!b &a k : *a}` and the end of the stream. -/
def demoTokens : List Token :=
  [.streamStart .utf8, .tagDirective ⟨[33, 101, 33], [120]⟩, .documentStart, .flowMappingStart, .key, .tag [33, 101, 33] [98, 0, 99], .anchor [97],
    .scalar [107] .plain, .value, .alias [97], .flowMappingEnd, .streamEnd].map fun d => { data := d, start := {}, stop := {} }

/-- The number of outcomes of each kind in ten calls, the error, and the blocks in use at the end. -/
def demoSession (ts : List Token) (h : Heap) : Option (Option (List OutKind × Option Fail) × List Nat) :=
  match parseSession (memSrc (listSrc .memory) ts) 1000 20 10 h with
  | .ok (r, h) => some (r.map fun r => (r.1.map HOut.kind, r.2.error), (List.range 60).filter fun p => (h.mem p).isSome)
  | .error _ => none

/- With memory: eight events, then nothing. -/
example : demoSession demoTokens (demoHeap 100) = some (some (List.replicate 8 .event ++ [.noEvent, .noEvent], none), [0]) := by decide +kernel
/- The tokens end too early: a failure, and the blocks are freed. -/
example : demoSession (demoTokens.take 7) (demoHeap 100) = some (some (List.replicate 3 .event ++ .failed :: List.replicate 6 .noEvent, some .memory), [0]) := by
  decide +kernel
/- An allocation fails, whichever: the heap is as it was. -/
example : ∀ k, k < 40 → (demoSession demoTokens (demoHeap k)).map Prod.snd = some [0] := by decide +kernel
/- The initialization makes eight allocations; the tokens and the parser make others. -/
example : demoSession demoTokens (demoHeap 7) = some (none, [0]) := by decide +kernel
example : ((demoSession demoTokens (demoHeap 15)).bind Prod.fst).bind Prod.snd = some .memory := by decide +kernel

/-- The tokens of this run meet the hypotheses. -/
theorem listSrc_safe {e : Fail} (he : e ≠ .ub) : (listSrc e).Safe := by
  intro x e' h
  cases x with
  | nil => cases h; exact he
  | cons t r => cases h

/-- All tokens of a list are readable. -/
theorem list_readable {e : Fail} {ts : List Token} (h : ∀ t ∈ ts, ReadableTok t.data) : ReadableSrc (listSrc e) ts := by
  have key : ∀ y, SrcReach (listSrc e) ts y → ∀ t ∈ y, t ∈ ts := by
    intro y hy
    induction hy with
    | refl => exact fun t ht => ht
    | @step y z t _ hn ih =>
      cases y with
      | nil => cases hn
      | cons u r => cases hn; exact fun t ht => ih t (.tail _ ht)
  intro y t z hy hn
  cases y with
  | nil => cases hn
  | cons u r => cases hn; exact h t (key _ hy t (.head _))

example : (listSrc .memory).Safe ∧ ReadableSrc (listSrc .memory) demoTokens := ⟨listSrc_safe (by simp), list_readable (by
  intro t ht
  simp only [demoTokens, List.map_cons, List.map_nil, List.mem_cons, List.not_mem_nil, or_false] at ht
  rcases ht with rfl | rfl | rfl | rfl | rfl | rfl | rfl | rfl | rfl | rfl | rfl | rfl <;>
    first | trivial | (unfold ReadableTok AnchorText; decide))⟩

end LibYaml
