import Verif.Spec.Convert
import Verif.Proofs.LoadParse
import Verif.Proofs.DumpSession
import Verif.Props.EmitterHeap
import Verif.Props.LoadParse
import Verif.Props.DumpSession

/-!
# Loader and dumper on one heap
-/

namespace LibYaml

open Spec

variable {ρ σ ω : Type}

/-- What converting does in comparison with values: the outcomes of the loader, the dumper before; result, and blocks that are lost. `A` says that there is
memory. -/
inductive ConvertLog [SrcMem ρ] (W : OutH ω) (A : Prop) (m fuel : Nat) : List LOut → Dumper (Emitter × ω) → CEnd × HPar ρ × HDumper (HEm ω) → Blocks → Prop
  | last {d : Doc} {os : List LOut} {s : Dumper (Emitter × ω)} {v : Emitter × ω} {p : HPar ρ} {t : HDumper (HEm ω)} (kind : d.nodes = [])
      (val : dump (emitTo (outEnv W)) fuel d s = .ok (true, t.see v)) (out : t.out.world = v.2) : ConvertLog W A m fuel (.doc d :: os) s (.done, p, t) []
  | next {d : Doc} {os : List LOut} {s s' : Dumper (Emitter × ω)} {r : CEnd × HPar ρ × HDumper (HEm ω)} {leak : Blocks} (kind : d.nodes ≠ [])
      (val : dump (emitTo (outEnv W)) fuel d s = .ok (true, s')) (rest : ConvertLog W A m fuel os s' r leak) : ConvertLog W A m fuel (.doc d :: os) s r leak
  | refused {d : Doc} {os : List LOut} {s : Dumper (Emitter × ω)} {v : Emitter × ω} {p : HPar ρ} {t : HDumper (HEm ω)}
      (val : dump (emitTo (outEnv W)) fuel d s = .ok (false, t.see v)) (out : t.out.world = v.2) : ConvertLog W A m fuel (.doc d :: os) s (.emitter, p, t) []
  | noMemory {d : Doc} {os : List LOut} {s : Dumper (Emitter × ω)} {p : HPar ρ} {t : HDumper (HEm ω)} (why : A → FullEm t.out) :
      ConvertLog W A m fuel (.doc d :: os) s (.emitter, p, t) []
  | failed {os : List LOut} {s : Dumper (Emitter × ω)} {v : Emitter × ω} {p : HPar ρ} {t : HDumper (HEm ω)} (same : s = t.see v) (out : t.out.world = v.2) :
      ConvertLog W A m fuel (.failed :: os) s (.parser, p, t) []
  | starved {os : List LOut} {s : Dumper (Emitter × ω)} {p : HPar ρ} {t : HDumper (HEm ω)} {leak : Blocks} (why : A → AtLimit (2 * m) p.st) :
      ConvertLog W A m fuel os s (.parser, p, t) leak

/-- Memory is lacking: an allocation fails, or a stack is at its limit. -/
def Lacking [SrcMem ρ] (A : Prop) (m : Nat) (r : CEnd × HPar ρ × HDumper (HEm ω)) : Prop :=
  (r.1 = .parser ∧ (A → AtLimit (2 * m) r.2.1.st)) ∨ (r.1 = .emitter ∧ (A → FullEm r.2.2.out))

theorem ConvertLog.same [SrcMem ρ] {W : OutH ω} {A : Prop} {m fuel : Nat} {os : List LOut} {s : Dumper (Emitter × ω)} {r : CEnd × HPar ρ × HDumper (HEm ω)} {leak : Blocks}
    (h : ConvertLog W A m fuel os s r leak) :
    Lacking A m r ∨ (leak = [] ∧ ∃ z, converted (emitTo (outEnv W)) fuel os s = .ok (r.1, z) ∧ z.out.2 = r.2.2.out.world) := by
  induction h with
  | @last d os s v p t h1 h2 h3 =>
    refine .inr ⟨rfl, t.see v, ?_, h3.symm⟩
    simp only [converted, h2, h1, if_true]
  | next h1 h2 _ ih =>
    rcases ih with ih | ⟨h3, z, i1, i2⟩
    · exact .inl ih
    · exact .inr ⟨h3, z, by simp only [converted, h2, h1, if_false, i1], i2⟩
  | @refused d os s v p t h1 h2 =>
    refine .inr ⟨rfl, t.see v, ?_, h2.symm⟩
    simp only [converted, h1]
  | noMemory h => exact .inl (.inr ⟨rfl, h⟩)
  | failed h1 h2 => exact .inr ⟨rfl, _, rfl, by rw [h1]; exact h2.symm⟩
  | starved h => exact .inl (.inl ⟨rfl, h⟩)

theorem ConvertLog.over [SrcMem ρ] {W : OutH ω} {A : Prop} {m fuel : Nat} {os : List LOut} {s : Dumper (Emitter × ω)} {r : CEnd × HPar ρ × HDumper (HEm ω)} {leak : Blocks}
    (h : ConvertLog W A m fuel os s r leak) : r.1 ≠ .running ∧ (leak ≠ [] → r.1 = .parser) := by
  induction h with
  | next _ _ _ ih => exact ih
  | _ => simp

/-- The outcomes tell how the stream ends: some call fails, or gives a document without nodes. -/
def LoadEnds (os : List LOut) : Prop := .failed ∈ os ∨ ∃ d, .doc d ∈ os ∧ d.nodes = []

section
variable [SrcMem ρ] [SrcLink ρ σ] [Strict] {A : Prop} {base : Nat → Option Obj} {bs : Blocks} {h : Heap} {W : OutH ω}

omit [SrcMem ρ] [SrcLink ρ σ] [Strict] in
theorem docAt_top {d : Doc} {hd : HDoc} {b : Blocks} (h : DocAt d hd b) : hd.nodes.top = 0 ↔ d.nodes = [] := by
  obtain ⟨a, n, hns, b1, b2, b3, hn, k1, _⟩ := h
  have hl := nodesAt_length k1
  rw [hn]
  show hns.length = 0 ↔ _
  rw [hl, List.length_eq_zero_iff]

theorem hw_convertLoop {H : HSrc ρ} {S : TokSrc σ} (hS : Link H S) (hstrict : Strict.strict) {maxLevel : Int} {fuel m dfuel j n : Nat} {p : HLPar ρ} {q q' : Parser σ} {b : Blocks}
    {s : HDumper (HEm ω)} {v : Emitter × ω} {o : Blocks} {os : List LOut} (has : p.aliases = {}) (hb : Both p.par q b) (hs : s.anchors = none) (hl : s.last = 0)
    (ho : DumpOwns true s.out v o) (e : Ext A base (b ++ (o ++ bs)) h) (hv : loadN roomy (cutSrc S) maxLevel fuel m j q = .ok (os, q')) (hj : j ≤ n)
    (hend : LoadEnds os) (hg : ∀ d, .doc d ∈ os → GraphOk d.nodes) (hm : m ≤ 2147483647) (hdf : m < dfuel) :
    hw (convertLoop H W maxLevel fuel m dfuel n p s) (fun r h' => ∃ b' v' o' leak, Left r.2.1.par.st b' ∧ EOwn r.2.2.out v' o' ∧ r.2.2.anchors = none ∧
      Lost leak ∧ Ext A base (b' ++ (o' ++ (leak ++ bs))) h' ∧ ConvertLog W A m dfuel os (s.see v) (r.1, r.2.1.par, r.2.2) leak) h := by
  induction n generalizing j p q b s v o os h with
  | zero =>
    obtain rfl : j = 0 := by omega
    cases hv
    rcases hend with hx | ⟨_, hx, _⟩ <;> cases hx
  | succ n ih =>
    cases j with
    | zero =>
      cases hv
      rcases hend with hx | ⟨_, hx, _⟩ <;> cases hx
    | succ j =>
      unfold loadN at hv
      cases h1 : load roomy (cutSrc S) maxLevel fuel m q with
      | error er => rw [h1] at hv; cases hv
      | ok r =>
      obtain ⟨o1, q1⟩ := r
      simp only [h1] at hv
      cases h2 : loadN roomy (cutSrc S) maxLevel fuel m j q1 with
      | error er => rw [h2] at hv; cases hv
      | ok r =>
      obtain ⟨os', q2⟩ := r
      simp only [h2] at hv
      cases hv
      unfold convertLoop
      rw [hw_bind]
      refine hw_lLoad hS hstrict e has hb h1 (fun g leak p' pb' k1 k2 k3 k4 => ?_) (fun g d hd b' p' pb' k1 k2 kL k3 k4 => ?_)
      · dsimp only
        rw [if_pos (by rfl), hw_pure]
        refine ⟨pb', v.1, o, leak, k1, ho.1, hs, k3, k2.perm (by blocks), ?_⟩
        by_cases hx : A → AtLimit (2 * m) p'.st
        · exact .starved hx
        · have hA : A := Classical.byContradiction fun hn => hx fun a => absurd a hn
          rcases k4 hA with hy | ⟨rfl, rfl⟩
          · exact absurd (fun _ => hy) hx
          · exact .failed (v := v) rfl ho.2.1
      · subst k1
        have hgd := hg d (.head _)
        dsimp only
        rw [if_neg (by simp), hw_bind]
        refine hw_mono (hw_dump (bs := pb' ++ bs) (b := b') (o := o) (emit_handles W) (legible_good kL.1) k2 hgd (Nat.le_trans kL.2 hm) (Nat.lt_of_le_of_lt kL.2 hdf)
          kL.1.tags hs hl ho (k4.perm (by blocks))) ?_
        rintro ⟨ok, s1⟩ h1' ⟨v1, o1', p1, p2, p3, p4, p5⟩
        have p5 := p5 (.inl trivial)
        simp only at p1 p3 p4 p5 ⊢
        cases ok with
        | false =>
          rw [if_pos (by rfl), hw_pure]
          refine ⟨pb', v1.1, o1', [], k3.own.left, p1.1, p3, .inl rfl, p2.perm (by blocks), ?_⟩
          rcases p5 with p5 | p5
          · exact .refused p5 p1.2.1
          · exact .noMemory fun a => over_full p1.1 (p5.2 a)
        | true =>
          have p6 : dump (emitTo (outEnv W)) dfuel d (s.see v) = .ok (true, s1.see v1) := went p5
          rw [if_neg (by simp), hw_ite]
          by_cases hz : d.nodes = []
          · rw [if_pos ((docAt_top k2).mpr hz), hw_pure]
            exact ⟨pb', v1.1, o1', [], k3.own.left, p1.1, p3, .inl rfl, p2.perm (by blocks), .last hz p6 p1.2.1⟩
          · rw [if_neg fun hx => hz ((docAt_top k2).mp hx)]
            have hend' : LoadEnds os' := by
              rcases hend with hx | ⟨d', hx, hy⟩
              · rcases List.mem_cons.mp hx with hx | hx
                · cases hx
                · exact .inl hx
              · rcases List.mem_cons.mp hx with hx | hx
                · cases hx; exact absurd hy hz
                · exact .inr ⟨d', hx, hy⟩
            refine hw_mono (ih (p := { par := p' }) rfl k3 p3 p4 p1 (p2.perm (by blocks)) h2 (by omega) hend' (fun d hd => hg d (.tail _ hd))) ?_
            rintro ⟨r, p2', s2⟩ h3 ⟨b2, v2, o2, leak, l1, l2, l3, l4, l5, l6⟩
            exact ⟨b2, v2, o2, leak, l1, l2, l3, l4, l5, .next hz p6 l6⟩

end

theorem graph_of_ids {d : Doc} (h : ∀ nd ∈ d.nodes, IdsValid d nd) : GraphOk d.nodes := by
  intro nd hnd i hi
  have := h nd hnd
  unfold IdsValid at this
  unfold Node.children at hi
  cases hd : nd.data with
  | scalar v st => rw [hd] at hi; cases hi
  | sequence items st =>
    rw [hd] at hi this
    have := this i hi
    exact ⟨by omega, this.2⟩
  | mapping pairs st =>
    rw [hd] at hi this
    simp only [List.mem_flatMap] at hi
    obtain ⟨p, hp, hi⟩ := hi
    have := this p hp
    simp only [List.mem_cons, List.not_mem_nil, or_false] at hi
    rcases hi with rfl | rfl <;> omega

/-- After `16 * bytes.length + 28` calls the outcomes of the loader tell how the stream ends. -/
theorem loads_end (o : Oracle) (maxLevel : Int) (enc : Option Enc) (bytes : List UInt8) (hsize : bytes.length < maxFileSize) {f fuel m n : Nat}
    (hf : bytes.length + 3 < f) (hfuel : 4 * bytes.length + 7 < fuel) (hm : 16 * bytes.length + 28 < m) (hn : 16 * bytes.length + 28 < n) :
    ∃ j os q, j ≤ n ∧ loadBytes roomy o maxLevel f fuel m enc bytes j = .ok (os, q) ∧ LoadEnds os ∧ ∀ d, .doc d ∈ os → GraphOk d.nodes := by
  obtain ⟨j, os, q, hj, hv, hjk⟩ := C56_loading_is_total roomy o maxLevel enc bytes hsize hf hfuel hm n
  by_cases hj0 : j = 0
  · exfalso
    subst hj0
    cases hv
    rcases hjk with h | h
    · omega
    · cases h
  obtain ⟨h1, se, ws, ds, tail, _, h2, h3, h4, h5, h6⟩ := C56_loading roomy o maxLevel fuel m enc bytes hsize hf j hj0 hv
  refine ⟨j, os, q, hj, hv, ?_, fun d hd => ?_⟩
  · rcases hjk with rfl | hx
    · rcases h6 with ⟨k1, k2⟩ | ⟨i, ee, k1, _⟩ | k1
      · exfalso
        subst k1
        have hlen : j ≤ ws.flatten.length := by
          have : ∀ (ws : List (List Event)) (ds : List Doc), ws.length = ds.length → (∀ wd ∈ ws.zip ds, RepDoc wd.1 wd.2) → ws.length ≤ ws.flatten.length := by
            intro ws
            induction ws with
            | nil => intro ds _ _; simp
            | cons w ws ih =>
              intro ds hl hr
              cases ds with
              | nil => cases hl
              | cons d ds =>
                obtain ⟨es, body, ee, B, hw, _⟩ := hr (w, d) (by simp)
                have := ih ds (by simpa using hl) fun wd hwd => hr wd (by simp [hwd])
                simp only at hw
                rw [List.flatten_cons, List.length_append, List.length_cons, hw]
                simp only [List.cons_append, List.length_cons, List.length_append]
                omega
          have h7 := this ws ds h4 h5
          rw [h2] at h3
          simp only [List.append_nil, List.length_map] at h3
          omega
        obtain ⟨vs, v, p1, _, _, _, p2, _⟩ := C56_parsing_is_total o maxLevel enc bytes hsize hf hfuel (se :: ws.flatten).length
        have p3 := k2.parseN
        rw [show parseN (scannerSrc o f) maxLevel fuel (se :: ws.flatten).length (parserStart enc bytes) = .ok (vs, v) from p1] at p3
        cases p3
        rw [events_map, List.length_map, List.length_cons] at p2
        omega
      · right
        refine ⟨Doc.empty, ?_, rfl⟩
        rw [h2, k1]
        simp [List.replicate_succ]
      · left
        rw [h2, k1]
        simp
    · exact .inl hx
  · rcases h1 d hd with rfl | ⟨_, h, _⟩
    · intro nd hnd; cases hnd
    · exact graph_of_ids h

end LibYaml
