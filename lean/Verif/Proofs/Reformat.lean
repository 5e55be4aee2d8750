import Verif.Spec.Reformat
import Verif.Proofs.LoadParse
import Verif.Proofs.EmitterHeapRun
import Verif.Props.EmitterHeap

/-!
# Parser and emitter on one heap
-/

namespace LibYaml

open Spec

variable {ρ σ ω : Type}

/-- What reformatting does in comparison with values: outcomes of the parser, emitter and output before; result. `A` says that there is memory, `err` is
the error of the parser on values. -/
inductive ReformatLog [SrcMem ρ] (W : OutH ω) (A : Prop) (err : Option Fail) : List POut → Emitter → ω → REnd × HPar ρ × ω → Prop
  | last {ev : Event} {os : List POut} {s : Emitter} {w w' : ω} {p : HPar ρ} (kind : ev.data = .streamEnd) (val : (emit ev.data s).val = .ok ())
      (out : execOps (outEnv W) (emit ev.data s).ops w = (none, w')) (error : p.error = none) :
      ReformatLog W A err (.event ev :: os) s w (.done, p, w')
  | next {ev : Event} {os : List POut} {s : Emitter} {w w' : ω} {r : REnd × HPar ρ × ω} (kind : ev.data ≠ .streamEnd) (val : (emit ev.data s).val = .ok ())
      (out : execOps (outEnv W) (emit ev.data s).ops w = (none, w')) (rest : ReformatLog W A err os (emit ev.data s).st w' r) :
      ReformatLog W A err (.event ev :: os) s w r
  | refused {ev : Event} {os : List POut} {s : Emitter} {w w' : ω} {p : HPar ρ} {x : EFail} (val : (emit ev.data s).val = .error x)
      (out : execOps (outEnv W) (emit ev.data s).ops w = (none, w')) (error : p.error = none) :
      ReformatLog W A err (.event ev :: os) s w (.emitter (.emitter x), p, w')
  | noOutput {ev : Event} {os : List POut} {s s' : Emitter} {w w' : ω} {p : HPar ρ} (out : execOps (outEnv W) (emit ev.data s).ops w = (some s', w'))
      (error : p.error = none) : ReformatLog W A err (.event ev :: os) s w (.emitter .writer, p, w')
  | noMemory {ev : Event} {os : List POut} {s s' : Emitter} {w w' : ω} {p : HPar ρ} (out : NoMem W (emit ev.data s).ops w s' w') (why : A → OverStack s')
      (error : p.error = none) : ReformatLog W A err (.event ev :: os) s w (.emitter .memory, p, w')
  | failed {os : List POut} {s : Emitter} {w : ω} {p : HPar ρ} (error : p.error = err) : ReformatLog W A err (.failed :: os) s w (.parser, p, w)
  | starved {os : List POut} {s : Emitter} {w : ω} {p : HPar ρ} (error : p.error = some .memory) (why : A → Full p.st) :
      ReformatLog W A err os s w (.parser, p, w)

/-- Memory is lacking. -/
def Starved (r : REnd × HPar ρ × ω) : Prop := (r.1 = .parser ∧ r.2.1.error = some .memory) ∨ r.1 = .emitter .memory

theorem ReformatLog.same [SrcMem ρ] {W : OutH ω} {A : Prop} {err : Option Fail} {os : List POut} {s : Emitter} {w : ω} {r : REnd × HPar ρ × ω}
    (h : ReformatLog W A err os s w r) : Starved r ∨ (reformatted W os s w = (r.1, r.2.2) ∧ r.2.1.error = if r.1 matches .parser then err else none) := by
  induction h with
  | last h1 h2 h3 h4 => right; simp [reformatted, h1 ▸ h3, h1 ▸ h2, h1, h4]
  | next h1 h2 h3 _ ih =>
    rcases ih with ih | ⟨i1, i2⟩
    · exact .inl ih
    · right; exact ⟨by simp [reformatted, h3, h2, h1, i1], i2⟩
  | refused h1 h2 h3 => right; simp [reformatted, h1, h2, h3]
  | noOutput h1 h2 => right; simp [reformatted, h1, h2]
  | noMemory => exact .inl (.inr rfl)
  | failed h => right; simp [reformatted, h]
  | starved h => exact .inl (.inl ⟨rfl, h⟩)

section
variable [SrcMem ρ] [SrcLink ρ σ] [Strict] {A : Prop} {base : Nat → Option Obj} {bs : Blocks} {h : Heap} {W : OutH ω}

omit [SrcMem ρ] [SrcLink ρ σ] [Strict] in
/-- After `noEvent` nothing happens. -/
theorem parse_over {S : TokSrc σ} {maxLevel : Int} {fuel n : Nat} {q q' q'' : Parser σ} {vs : List POut} (h : parse S maxLevel fuel q = .ok (.noEvent, q'))
    (hv : parseN S maxLevel fuel n q' = .ok (vs, q'')) : ∀ v ∈ vs, v = .noEvent := by
  have hq : q' = q := by
    unfold parse at h
    split at h
    · cases h; rfl
    · split at h <;> cases h
  subst hq
  induction n generalizing vs q'' with
  | zero => cases hv; simp
  | succ n ih =>
    unfold parseN at hv
    rw [h] at hv
    simp only at hv
    cases h2 : parseN S maxLevel fuel n q' with
    | error e => rw [h2] at hv; cases hv
    | ok r2 =>
      obtain ⟨os, q2⟩ := r2
      simp only [h2] at hv
      cases hv
      intro v hm
      rcases List.mem_cons.mp hm with rfl | hm
      · rfl
      · exact ih h2 v hm

omit [SrcMem ρ] [SrcLink ρ σ] [Strict] in
theorem event_end {ev : EvData} {e : HEvent} {b : Blocks} (h : EventAt ev e b) : e = .streamEnd ↔ ev = .streamEnd := by
  cases ev with
  | streamEnd => exact ⟨fun _ => rfl, fun _ => h.1⟩
  | streamStart enc => rw [h.1]; simp
  | documentEnd i => rw [h.1]; simp
  | sequenceEnd => rw [h.1]; simp
  | mappingEnd => rw [h.1]; simp
  | «alias» a => obtain ⟨p, h, _⟩ := h; rw [h]; simp
  | documentStart v ts i => obtain ⟨p, q, _, _, h, _⟩ := h; rw [h]; simp
  | sequenceStart a t i st => obtain ⟨p, q, _, _, h, _⟩ := h; rw [h]; simp
  | mappingStart a t i st => obtain ⟨p, q, _, _, h, _⟩ := h; rw [h]; simp
  | scalar a t v i j st => obtain ⟨p, q, r, _, _, _, h, _⟩ := h; rw [h]; simp

/-- The outcomes tell how the stream ends. -/
def Ends (vs : List POut) : Prop := .failed ∈ vs ∨ ∃ ev, .event ev ∈ vs ∧ ev.data = .streamEnd

theorem hw_reformatLoop {H : HSrc ρ} {S : TokSrc σ} (hS : Link H S) (hstrict : Strict.strict) {maxLevel : Int} {fuel n : Nat} {p : HPar ρ} {v v' : Parser σ} {b : Blocks}
    {q : HEm ω} {s : Emitter} {c : Blocks} {vs : List POut} (hb : Both p v b) (hs : Sound s) (hq : EOwn q s c) (e : Ext A base (b ++ (c ++ bs)) h)
    (hv : parseN (cutSrc S) maxLevel fuel n v = .ok (vs, v')) (hend : Ends vs) :
    hw (reformatLoop H W maxLevel fuel n p q) (fun r h' => ∃ b' s' c', Left r.2.1.st b' ∧ EOwn r.2.2 s' c' ∧ Ext A base (b' ++ (c' ++ bs)) h' ∧
      ReformatLog W A v'.error vs s q.world (r.1, r.2.1, r.2.2.world)) h := by
  induction n generalizing p v b q s c vs h with
  | zero =>
    cases hv
    rcases hend with hx | ⟨_, hx, _⟩ <;> cases hx
  | succ n ih =>
    unfold parseN at hv
    cases h1 : parse (cutSrc S) maxLevel fuel v with
    | error e => rw [h1] at hv; cases hv
    | ok r =>
      obtain ⟨o, v1⟩ := r
      simp only [h1] at hv
      cases h2 : parseN (cutSrc S) maxLevel fuel n v1 with
      | error e => rw [h2] at hv; cases hv
      | ok r2 =>
        obtain ⟨os, v2⟩ := r2
        simp only [h2] at hv
        cases hv
        unfold reformatLoop
        rw [hw_bind]
        refine hw_mono (hw_parseCall hS hb e (by rw [h1]; simp) (by rw [h1]; simp)) fun r h' hr => ?_
        obtain ⟨o', p1⟩ := r
        rw [h1] at hr
        simp only
        cases o' with
        | noEvent =>
          exfalso
          obtain ⟨q3, b1, g1, _, _⟩ := hr
          cases g1
          have := parse_over h1 h2
          rcases hend with hx | ⟨ev, hx, _⟩
          · rcases List.mem_cons.mp hx with hx | hx
            · cases hx
            · cases this _ hx
          · rcases List.mem_cons.mp hx with hx | hx
            · cases hx
            · cases this _ hx
        | failed =>
          obtain ⟨⟨b1, g1, e'⟩, g2, g3⟩ := hr
          simp only
          rw [hw_pure]
          refine ⟨b1, s, c, g1, hq, e', ?_⟩
          rcases g3 with ⟨q3, i1, i2⟩ | ⟨i1, i2⟩
          · cases i1
            have hq : v1.error.isSome = true := by rw [i2]; exact g2
            rw [parse_dead hq] at h2
            cases h2
            exact .failed i2.symm
          · exact .starved i1 i2
        | event he =>
          obtain ⟨ev, q3, x, b1, g1, g2, g3, e'⟩ := hr
          cases g1
          obtain ⟨j1, j2, j3⟩ := g2.2 hstrict
          simp only
          rw [hw_bind]
          refine hw_mono (hw_emit (W := W) (bs := b1 ++ bs) hs hq j1 j3 (e'.perm (by blocks))) ?_
          rintro ⟨r, q1⟩ h2' ⟨s1, c1, k1, k2, k3⟩
          simp only at k1 k3 ⊢
          have fin : ∀ r1, ReformatLog W A v'.error (.event ev :: os) s q.world (r1, p1, q1.world) →
              hw (pure (r1, p1, q1)) (fun r h' => ∃ b' s' c', Left r.2.1.st b' ∧ EOwn r.2.2 s' c' ∧ Ext A base (b' ++ (c' ++ bs)) h' ∧
                ReformatLog W A v'.error (.event ev :: os) s q.world (r.1, r.2.1, r.2.2.world)) h2' := by
            intro r1 hl
            rw [hw_pure]
            exact ⟨b1, s1, c1, g3.own.left, k1, k2.perm (by blocks), hl⟩
          cases r with
          | error x =>
            simp only
            cases x with
            | emitter x => exact fin _ (.refused k3.1 k3.2.2 g3.error)
            | writer => exact fin _ (.noOutput k3 g3.error)
            | memory => exact fin _ (.noMemory k3.1 k3.2 g3.error)
          | ok u =>
            have hs1 := k3.sound hs rfl
            obtain ⟨m1, rfl, m3⟩ := k3
            simp only
            have hd : he.data = .streamEnd ↔ ev.data = .streamEnd := event_end j1
            rw [hw_ite]
            by_cases hse : ev.data = .streamEnd
            · rw [if_pos (hd.mpr hse)]
              exact fin _ (.last hse m1 m3 g3.error)
            · rw [if_neg fun hx => hse (hd.mp hx)]
              have hend' : Ends os := by
                rcases hend with hx | ⟨ev', hx, hy⟩
                · rcases List.mem_cons.mp hx with hx | hx
                  · cases hx
                  · exact .inl hx
                · rcases List.mem_cons.mp hx with hx | hx
                  · cases hx; exact absurd hy hse
                  · exact .inr ⟨ev', hx, hy⟩
              refine hw_mono (ih g3 hs1 k1 (k2.perm (by blocks)) h2 hend') ?_
              rintro ⟨r, p2, q2⟩ h3 ⟨b', s', c', l1, l2, l3, l4⟩
              exact ⟨b', s', c', l1, l2, l3, .next hse m1 m3 l4⟩

end

end LibYaml
