import Verif.Model.DumpSession
import Verif.Proofs.DumperHeap
import Verif.Proofs.EmitterHeapRun
import Verif.Props.DumpLoad
import Verif.Props.DumperHeap

/-!
# Dumper and emitter on one heap: helper lemmas
-/

namespace LibYaml

open Spec

variable {ω : Type}

/-- The emitter as the dumper sees it: it stands for an emitter on values and a state of the output handler. -/
def DumpOwns (b : Bool) (p : HEm ω) (v : Emitter × ω) (o : Blocks) : Prop := EOwn p v.1 o ∧ p.world = v.2 ∧ (b = true → Sound v.1)

theorem emit_handles (W : OutH ω) :
    Handles (emitEvent W) True DumpOwns Legible (fun v => OverStack v.1) (fun ev v => emitTo (outEnv W) { data := ev } v) := by
  refine ⟨fun t v o h => ⟨h.1, h.2.1, nofun⟩, ?_⟩
  intro A base bs h ev he x p v o hg hev ho e
  obtain ⟨s, w⟩ := v
  obtain ⟨ho, hw', hs⟩ := ho
  replace hs : Sound s := hs rfl
  replace hw' : p.world = w := hw'
  subst hw'
  unfold emitEvent
  rw [hw_bind]
  refine hw_mono (hw_emit (W := W) hs ho hev hg e) ?_
  rintro ⟨r, p'⟩ h' ⟨s', b', k1, k2, k3⟩
  simp only at k1 k2 k3 ⊢
  have key : Called W A ev s p.world r s' p'.world → (∃ u, r = .ok u) →
      emitTo (outEnv W) { data := ev } (s, p.world) = (true, (s', p'.world)) := by
    rintro hc ⟨u, rfl⟩
    obtain ⟨h1, h2, h3⟩ := hc
    simp only [emitTo, Res.exec, h3, h1, h2]
  cases r with
  | ok u =>
    simp only
    rw [hw_pure]
    exact ⟨(s', p'.world), b', ⟨k1, rfl, fun _ => k3.sound hs rfl⟩, k2, fun _ => .inl (key k3 ⟨u, rfl⟩).symm⟩
  | error x =>
    simp only
    rw [hw_pure]
    refine ⟨(s', p'.world), b', ⟨k1, rfl, nofun⟩, k2, fun _ => ?_⟩
    cases x with
    | emitter x =>
      obtain ⟨h1, h2, h3⟩ := k3
      left
      simp only [emitTo, Res.exec, h3, h1, h2]
    | writer =>
      have h3 : execOps (outEnv W) (emit ev s).ops p.world = (some s', p'.world) := k3
      left
      simp only [emitTo, Res.exec, h3]
    | memory => exact .inr ⟨rfl, k3.2⟩

/-! ### Documents whose strings can be read -/

theorem anchor_legible (n : Nat) : CText (generateAnchor n) := fun c hc => by
  have := (generateAnchor_chars n).2 c hc
  exact ⟨by omega, .inl (by omega)⟩

theorem anchorText_legible (a : Anch) : ∀ x ∈ anchorText a, CText x := by
  unfold anchorText
  split
  · nofun
  · rintro x ⟨⟩
    exact anchor_legible _

theorem legible_good {d : Doc} (h : LegibleDoc d) : GoodDoc Legible d := by
  refine ⟨trivial, trivial, h.directives, trivial, anchor_legible, trivial, trivial, fun nd hnd a => ?_⟩
  have ht : ∀ x ∈ some nd.tag, CText x := by rintro x ⟨⟩; exact h.tags nd hnd
  cases hd : nd.data with
  | scalar v st => exact fun _ _ => ⟨anchorText_legible a, ht, h.values nd hnd v st hd⟩
  | sequence items st => exact fun _ => ⟨anchorText_legible a, ht⟩
  | mapping pairs st => exact fun _ => ⟨anchorText_legible a, ht⟩

/-! ### Documents one after the other -/

theorem dump_opened {τ : Type} {em : Event → τ → Bool × τ} {fuel : Nat} {d : Doc} {s s' : Dumper τ} (h : dump em fuel d s = .ok (true, s')) : s'.opened = true := by
  have key : ∀ t : Dumper τ, t.opened = true → (if d.nodes = [] then dClose em t else dumpNodes em fuel d t) = .ok (true, s') → s'.opened = true := by
    intro t ht hk
    split at hk
    · unfold dClose at hk
      rw [if_neg (by simp [ht])] at hk
      split at hk
      · cases hk; exact ht
      · split at hk
        · cases hk; exact ht
        · cases hk
    · unfold dumpNodes at hk
      split at hk
      · cases hk
      · split at hk
        · cases hk
        · split at hk
          · cases hk
          · cases hk
          · split at hk
            cases hk
            exact ht
  unfold dump at h
  split at h
  · cases h
  · cases h
  · next t ht =>
    refine key t ?_ h
    split at ht
    · next ho => cases ht; exact ho
    · unfold dOpen at ht
      split at ht
      · cases ht
      · split at ht
        · cases ht; rfl
        · cases ht

theorem runCalls_cons {τ : Type} {em : Event → τ → Bool × τ} {fuel : Nat} {c : DCall} {cs : List DCall} {s s1 : Dumper τ} {b : Bool}
    (h : c.run em fuel s = .ok (b, s1)) {bs : List Bool} {z : Dumper τ} :
    runCalls em fuel (c :: cs) s = .ok (bs, z) ↔ ∃ bs', bs = b :: bs' ∧ runCalls em fuel cs s1 = .ok (bs', z) := by
  rw [show runCalls em fuel (c :: cs) s = match c.run em fuel s with
    | .error e => .error e
    | .ok (b, s) =>
      match runCalls em fuel cs s with
      | .error e => .error e
      | .ok (bs, s) => .ok (b :: bs, s) from rfl, h]
  simp only
  cases runCalls em fuel cs s1 with
  | error e => simp
  | ok r =>
    obtain ⟨bs', z'⟩ := r
    simp only [Except.ok.injEq, Prod.mk.injEq]
    constructor
    · rintro ⟨rfl, rfl⟩
      exact ⟨bs', rfl, rfl, rfl⟩
    · rintro ⟨_, rfl, rfl, rfl⟩
      exact ⟨rfl, rfl⟩

/-- The result of a series of calls on the heap, if the same calls on values are `cs`. -/
structure Told (W : OutH ω) (A : Prop) (fuel : Nat) (cs : List DCall) (s : Dumper (Emitter × ω)) (ok : Bool) (s' : Dumper (Emitter × ω)) : Prop where
  yes : ok = true → ∃ bs, runCalls (emitTo (outEnv W)) fuel cs s = .ok (bs, s') ∧ ∀ b ∈ bs, b = true
  no : A → ok = false → OverStack s'.out.1 ∨ ∀ bs z, runCalls (emitTo (outEnv W)) fuel cs s = .ok (bs, z) → false ∈ bs

/-- One more call in front. -/
theorem Told.cons {W : OutH ω} {A : Prop} {fuel : Nat} {c : DCall} {cs : List DCall} {s s1 s' : Dumper (Emitter × ω)} {ok : Bool}
    (h : c.run (emitTo (outEnv W)) fuel s = .ok (true, s1)) (hr : Told W A fuel cs s1 ok s') : Told W A fuel (c :: cs) s ok s' := by
  refine ⟨fun ho => ?_, fun hA ho => (hr.no hA ho).imp_right fun hn bs z hv => ?_⟩
  · obtain ⟨bs, k1, k2⟩ := hr.yes ho
    refine ⟨true :: bs, (runCalls_cons h).mpr ⟨bs, rfl, k1⟩, fun b hb => ?_⟩
    rcases List.mem_cons.mp hb with rfl | hb
    · rfl
    · exact k2 b hb
  · obtain ⟨bs', rfl, hv'⟩ := (runCalls_cons h).mp hv
    exact List.mem_cons_of_mem _ (hn bs' z hv')

/-- The first call fails. -/
theorem Told.failed {W : OutH ω} {A : Prop} {fuel : Nat} {c : DCall} {cs : List DCall} {s s1 : Dumper (Emitter × ω)}
    (h : c.run (emitTo (outEnv W)) fuel s = .ok (false, s1) ∨ (A → OverStack s1.out.1)) : Told W A fuel (c :: cs) s false s1 := by
  refine ⟨nofun, fun hA _ => ?_⟩
  rcases h with h | h
  · right
    intro bs z hv
    obtain ⟨bs', rfl, _⟩ := (runCalls_cons h).mp hv
    exact List.mem_cons_self
  · exact .inl (h hA)

section
variable {W : OutH ω} {A : Prop} {base : Nat → Option Obj} {bs : Blocks} {h : Heap}

theorem hw_dropDocs {ds : List Doc} {hds : List HDoc} {b : Blocks} {Q : Unit → Heap → Prop} (hd : DocsAt ds hds b)
    (e : Ext A base (b ++ bs) h) (hQ : ∀ h', Ext A base bs h' → Q () h') : hw (hDropDocs hds) Q h := by
  induction ds generalizing hds b h with
  | nil =>
    obtain ⟨rfl, rfl⟩ := hd
    exact hQ h e
  | cons d ds ih =>
    obtain ⟨hd, hds', x, rest, rfl, k1, k2, rfl⟩ := hd
    unfold hDropDocs
    rw [hw_bind]
    exact hw_documentDelete (bs := rest ++ bs) (e.perm (by blocks)) k1 fun g e2 => ih k2 e2

/-- The heap and the emitter after a series of calls. -/
def HeapDumped (W : OutH ω) (A : Prop) (base : Nat → Option Obj) (bs : Blocks) (fuel : Nat) (cs : List DCall) (s : Dumper (Emitter × ω)) (r : Bool × HDumper (HEm ω))
    (h : Heap) : Prop :=
  ∃ v o, DumpOwns r.1 r.2.out v o ∧ Ext A base (o ++ bs) h ∧ r.2.anchors = none ∧ r.2.last = 0 ∧ (r.1 = true → r.2.opened = true) ∧
    Told W A fuel cs s r.1 (r.2.see v)

theorem hw_dumps {fuel : Nat} {ds : List Doc} {hds : List HDoc} {b o : Blocks} {s : HDumper (HEm ω)} {v : Emitter × ω} (tail : List DCall)
    {m : Bool × HDumper (HEm ω) → HM (Bool × HDumper (HEm ω))}
    (hm : ∀ s v o h, s.opened = true → s.anchors = none → s.last = 0 → DumpOwns true s.out v o → Ext A base (o ++ bs) h →
      hw (m (true, s)) (HeapDumped W A base bs fuel tail (s.see v)) h)
    (hm' : ∀ s, m (false, s) = pure (false, s))
    (hd : DocsAt ds hds b) (hok : ∀ d ∈ ds, Dumps.Ok d ∧ LegibleDoc d ∧ d.nodes.length < fuel) (hop : s.opened = true) (hs : s.anchors = none)
    (hl : s.last = 0) (ho : DumpOwns true s.out v o) (e : Ext A base (b ++ (o ++ bs)) h) :
    hw (hDumps W fuel hds s >>= m) (HeapDumped W A base bs fuel (ds.map .dumps ++ tail) (s.see v)) h := by
  induction ds generalizing hds b o s v h with
  | nil =>
    obtain ⟨rfl, rfl⟩ := hd
    unfold hDumps
    rw [hw_bind, hw_pure]
    exact hm s v o h hop hs hl ho e
  | cons d ds ih =>
    obtain ⟨hd, hds', x, rest, rfl, k1, k2, rfl⟩ := hd
    obtain ⟨j1, j2, j3⟩ := hok d (.head _)
    unfold hDumps
    rw [hw_bind, hw_bind]
    refine hw_mono (hw_dump (bs := rest ++ bs) (b := x) (o := o) (emit_handles W) (legible_good j2) k1 j1.graph j1.int j3 j1.tags hs hl ho (e.perm (by blocks))) ?_
    rintro ⟨ok, s1⟩ h1 ⟨v1, o1, p1, p2, p3, p4, p5⟩
    have p5 := p5 (.inl trivial)
    simp only at p1 p3 p4 p5 ⊢
    cases ok with
    | true =>
      rw [if_pos rfl, ← hw_bind]
      have p6 : dump (emitTo (outEnv W)) fuel d (s.see v) = .ok (true, s1.see v1) := went p5
      refine hw_mono (ih k2 (fun d hd => hok d (.tail _ hd)) (dump_opened p6) p3 p4 p1 (p2.perm (by blocks))) ?_
      rintro r h2 ⟨v2, o2, q1, q2, q3, q4, q5, q6⟩
      exact ⟨v2, o2, q1, q2, q3, q4, q5, q6.cons p6⟩
    | false =>
      rw [if_neg (by simp), hw_bind]
      refine hw_dropDocs k2 (bs := o1 ++ bs) (p2.perm (by blocks)) fun h2 e2 => ?_
      rw [hw_pure, hm', hw_pure]
      refine ⟨v1, o1, p1, e2, p3, p4, nofun, .failed ?_⟩
      rcases p5 with p5 | p5
      · exact .inl p5
      · exact .inr p5.2

theorem hw_dumpStream {fuel : Nat} {ds : List Doc} {hds : List HDoc} {b o : Blocks} {s : HDumper (HEm ω)} {v : Emitter × ω}
    (hd : DocsAt ds hds b) (hok : ∀ d ∈ ds, Dumps.Ok d ∧ LegibleDoc d ∧ d.nodes.length < fuel) (hop : s.opened = false) (hs : s.anchors = none)
    (hl : s.last = 0) (ho : DumpOwns true s.out v o) (e : Ext A base (b ++ (o ++ bs)) h) :
    hw (hDumpStream W fuel hds s) (HeapDumped W A base bs fuel (.opens :: (ds.map .dumps ++ [.closes])) (s.see v)) h := by
  unfold hDumpStream
  rw [hw_bind]
  refine hw_mono (hw_dOpen (bs := b ++ bs) (emit_handles W) trivial hop ho (e.perm (by blocks))) ?_
  rintro ⟨ok, s1⟩ h1 ⟨v1, o1, p1, p2, p3, p4, p5, p6⟩
  have p6 := p6 (.inl trivial)
  simp only at p1 p3 p4 p5 p6 ⊢
  cases ok with
  | true =>
    rw [if_pos rfl]
    refine hw_mono (hw_dumps (bs := bs) (o := o1) (b := b) (v := v1) [.closes] ?_ ?_ hd hok (p5 rfl) (p3.trans hs) (p4.trans hl) p1 (p2.perm (by blocks))) ?_
    · intro s v o h hop hs hl ho e
      dsimp only
      rw [if_pos rfl]
      refine hw_mono (hw_dClose (emit_handles W) trivial hop ho e) ?_
      rintro ⟨ok, s2⟩ h2 ⟨v2, o2, q1, q2, q3, q4, q5⟩
      have q5 := q5 (.inl trivial)
      simp only at q1 q3 q4 q5
      cases ok with
      | true =>
        have q6 : DCall.run (emitTo (outEnv W)) fuel .closes (s.see v) = .ok (true, s2.see v2) := went q5
        refine ⟨v2, o2, q1, q2, q3.trans hs, q4.trans hl, fun _ => ?_, .cons q6 ⟨fun _ => ⟨[], rfl, nofun⟩, nofun⟩⟩
        replace q6 : dClose (emitTo (outEnv W)) (s.see v) = .ok (true, s2.see v2) := q6
        unfold dClose at q6
        rw [if_neg (by simp [HDumper.see, hop])] at q6
        have hsee : (s2.see v2).opened = true → s2.opened = true := id
        apply hsee
        split at q6
        · injection q6 with q6
          injection q6 with _ q6
          rw [← q6]
          exact hop
        · split at q6
          · injection q6 with q6
            injection q6 with _ q6
            rw [← q6]
            exact hop
          · cases q6
      | false =>
        refine ⟨v2, o2, q1, q2, q3.trans hs, q4.trans hl, nofun, .failed ?_⟩
        rcases q5 with q5 | q5
        · exact .inl q5
        · exact .inr q5.2
    · intro s
      rfl
    · rintro r h2 ⟨v2, o2, q1, q2, q3, q4, q5, q6⟩
      exact ⟨v2, o2, q1, q2, q3, q4, q5, q6.cons (went p6)⟩
  | false =>
    rw [if_neg (by simp), hw_bind]
    refine hw_dropDocs hd (bs := o1 ++ bs) (p2.perm (by blocks)) fun h2 e2 => ?_
    rw [hw_pure]
    refine ⟨v1, o1, p1, e2, p3.trans hs, p4.trans hl, nofun, .failed ?_⟩
    rcases p6 with p6 | p6
    · exact .inl p6
    · exact .inr p6.2

end

end LibYaml
