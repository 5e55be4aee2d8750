import Verif.Proofs.EmitterHeapTags

/-!
# The emitter on the heap: the analysis of events, and nodes
-/

namespace LibYaml

open Spec

variable {ω α α' β β' : Type}

section
variable {W : OutH ω} {A : Prop} {base : Nat → Option Obj} {P : HEm ω → Emitter → Blocks → Prop}

/-- A change of pointers at the end. -/
theorem erel_thenMod {m : HE ω Unit} {v : EM β} {f : HEm ω → HEm ω} {R Q : Unit → β → HEm ω → Emitter → Blocks → Prop} (h : ERel W A base P m v R)
    (hw0 : ∀ p, (f p).world = p.world) (hf : ∀ a p s b, R () a p s b → Q () a (f p) s b) : ERel W A base P (m >>= fun _ => eMod f) v Q := by
  intro p s b fr h' hp e hu
  rw [hw_he_bind]
  refine hw_mono (h p s b fr h' hp e hu) fun r h'' hr => ?_
  obtain ⟨r, q⟩ := r
  cases r with
  | error e' => exact hr
  | ok a' =>
    obtain ⟨a, b', k1, k2, k3, k4⟩ := hr
    exact ⟨a, b', k1, by rw [k2]; exact congrArg (fun w => (none, w)) (hw0 q).symm, hf _ _ _ _ k3, k4⟩

/-- A question that has the same answer for the value emitter. -/
theorem erel_ask {m : HE ω α'} {f : Emitter → α'} {k' : α' → HE ω β'} {v : EM β} {Q : β' → β → HEm ω → Emitter → Blocks → Prop}
    (hm : ∀ p s b fr h, P p s b → Ext A base (b ++ fr) h → hw (m p) (fun r h' => r = (.ok (f s), p) ∧ h' = h) h)
    (hk : ∀ p s b, P p s b → ERel W A base (fun p' s' b' => P p' s' b' ∧ p' = p ∧ s' = s) (k' (f s)) v Q) : ERel W A base P (m >>= k') v Q := by
  intro p s b fr h hp e hu
  rw [hw_he_bind]
  refine hw_mono (hm p s b fr h hp e) fun r h' hr => ?_
  obtain ⟨rfl, rfl⟩ := hr
  exact hk p s b hp p s b fr h' ⟨hp, rfl, rfl⟩ e hu

end

/-! ### The blocks of the current event -/

theorem eat_mem {x : QEv} {q : List QEv} {T b : Blocks} {p : HEm ω} {s : Emitter} (h : EAt (x :: q) T p s b) : ∀ z ∈ x.2.2 ++ T, z ∈ b := by
  obtain ⟨x1, x2, x3, x4, x5, x6, k1, k2, k3, k4, k5, k6, k7, k8, k9, k10, hb⟩ := h
  intro z hz
  refine hb.mem_iff.mpr ?_
  unfold qBlocks
  simp only [List.flatMap_cons, List.mem_append] at hz ⊢
  rcases hz with hz | hz <;> simp [hz]

theorem eat_ok {x : QEv} {q : List QEv} {T b : Blocks} {p : HEm ω} {s : Emitter} (h : EAt (x :: q) T p s b) : QOk x := by
  obtain ⟨x1, x2, x3, x4, x5, x6, k1, k2, k3, _⟩ := h
  exact k3 x List.mem_cons_self

section
variable {W : OutH ω} {A : Prop} {base : Nat → Option Obj} {x : QEv} {q : List QEv} {T : Blocks} {sc : Prop}

/-- The texts are in the blocks of the current event and of the directives. -/
abbrev Texts (x : QEv) (T : Blocks) (sc : Prop) : HEm ω → Prop := Pointed (x.2.2 ++ T) sc

theorem into_live {B b : Blocks} {t : Text} {p : Ptr} {o : Option Text} (hs : StrAt (some (textBytes t)) p b) (hb : ∀ z ∈ b, z ∈ B) :
    LiveRef B o (.into p) := by
  obtain ⟨a, z, rfl, rfl⟩ := hs
  exact .inr (.inr ⟨a, _, rfl, hb _ List.mem_cons_self⟩)

theorem erel_analyzeAnchor {a : Text} {p : Ptr} {b : Blocks} {isAlias : Bool} (hs : StrAt (some (textBytes a)) p b) (hb : ∀ z ∈ b, z ∈ x.2.2) (ha : CText a) :
    ERel W A base (EHas (x :: q) T (Texts x T sc)) (eAnalyzeAnchor W p isAlias) (analyzeAnchor a isAlias) (fun _ _ => EHas (x :: q) T (Texts x T sc)) := by
  unfold eAnalyzeAnchor
  refine erel_lift fun p0 s0 b0 fr h hp e hu => ?_
  refine hw_text e hs (fun z hz => List.mem_append_left _ (eat_mem hp.1 z (List.mem_append_left _ (hb z hz)))) ha ⟨rfl, ?_⟩
  refine erel_thenMod (R := fun _ _ => EHas (x :: q) T fun p => LiveRef (x.2.2 ++ T) p.val.tagHandle p.handle ∧
      LiveRef (x.2.2 ++ T) p.val.tagSuffix p.suffix ∧ (sc → ∃ a o, p.value = .heap a ∧ (a, Obj.bytes o) ∈ x.2.2 ++ T))
    (erel_post (erel_run (I' := fun _ p => LiveRef (x.2.2 ++ T) p.val.tagHandle p.handle ∧
      LiveRef (x.2.2 ++ T) p.val.tagSuffix p.suffix ∧ (sc → ∃ a o, p.value = .heap a ∧ (a, Obj.bytes o) ∈ x.2.2 ++ T)) (frames_analyzeAnchor a isAlias) ?_)
      fun _ _ _ _ _ hh => hh.2) (fun _ => rfl) ?_
  · intro p1 u w hI hv
    have hst : (analyzeAnchor a isAlias p1.val).st = { p1.val with anchor := some a, anchorIsAlias := isAlias } := by
      unfold analyzeAnchor at hv ⊢
      by_cases h1 : a.isEmpty
      · simp only [h1, if_true] at hv
        cases isAlias <;> cases hv
      · simp only [h1, if_false, Bool.false_eq_true] at hv ⊢
        by_cases h2 : (a.all isAlpha) = true
        · simp only [h2, Bool.not_true, Bool.false_eq_true, if_false] at hv ⊢
          rfl
        · simp only [h2, Bool.not_false, if_true] at hv
          cases isAlias <;> cases hv
    simp only [hst]
    exact ⟨hI.handle, hI.suffix, hI.value⟩
  · rintro u p1 s1 b1 ⟨h1, h2, h3, h4⟩
    exact ⟨h1, ⟨into_live hs fun z hz => List.mem_append_left _ (hb z hz), h2, h3, h4⟩⟩

theorem erel_analyzeTag {t : Text} {p : Ptr} {b : Blocks} (hs : StrAt (some (textBytes t)) p b) (hb : ∀ z ∈ b, z ∈ x.2.2) (ht : CText t) :
    ERel W A base (EHas (x :: q) T (Texts x T sc)) (eAnalyzeTag p) (analyzeTag t) (fun _ _ => EHas (x :: q) T (Texts x T sc)) := by
  unfold eAnalyzeTag analyzeTag
  refine erel_lift fun p0 s0 b0 fr h hp e hu => ?_
  refine hw_text e hs (fun z hz => List.mem_append_left _ (eat_mem hp.1 z (List.mem_append_left _ (hb z hz)))) ht ⟨rfl, ?_⟩
  refine erel_ite Iff.rfl (fun _ => erel_fail fun _ _ _ hh => hh.own) fun _ => ?_
  refine erel_get fun p1 s1 b1 hp1 => ?_
  refine erel_lift fun p2 s2 b2 fr h hp2 e hu => ?_
  obtain ⟨hp2, rfl, rfl⟩ := hp2
  have hp2' := hp2.1
  have hmem := eat_mem hp2.1
  obtain ⟨x1, x2, x3, x4, x5, x6, k1, k2, k3, k4, k5, k6, k7, k8, k9, k10, hb2⟩ := hp2'
  obtain ⟨a, n, vs, k11, k12, k13, k14⟩ := k8
  have hl := dirsAt_length k13
  rw [List.length_map] at hl
  rw [k11]
  refine hw_fitting (vs := vs) (pre := []) (x := T) (n := n) (ds := s2.tags) e ?_ (fun z hz => List.mem_append_left _ (hmem z (List.mem_append_right _ hz)))
    k13 k4 rfl rfl ?_ ?_
  · refine List.mem_append_left _ (hb2.mem_iff.mpr ?_)
    rw [k14]
    simp
  · intro hn
    refine ⟨rfl, ?_⟩
    rw [hn]
    refine erel_pre (P := EHas (x :: q) T (Texts x T sc)) (erel_mod (g' := fun s => { s with tagSuffix := some t })
      (fun p => ⟨p.anchor, p.handle, _, p.value, rfl⟩) (fun _ _ => rfl) fun p1 hI => ?_) fun _ _ _ hh => hh.1
    exact ⟨hI.anchor, hI.handle, into_live hs fun z hz => List.mem_append_left _ (hb z hz), hI.value⟩
  · intro d p' q' y z hsome j1 j2 j3
    refine ⟨rfl, ?_⟩
    rw [hsome]
    have hd : LDir d := k4 d (List.mem_of_find?_eq_some hsome)
    unfold eUseTag
    refine erel_pre (P := EHas (x :: q) T (Texts x T sc)) ?_ fun _ _ _ hh => hh.1
    refine erel_lift fun p3 s3 b3 fr h hp3 e hu => ?_
    have hm3 := eat_mem hp3.1
    refine hw_text e j1 (fun u hu => List.mem_append_left _ (hm3 u (List.mem_append_right _ (j3 u (List.mem_append_left _ hu))))) hd.1 ⟨rfl, ?_⟩
    refine erel_lift fun p3 s3 b3 fr h hp3 e hu => ?_
    have hm3 := eat_mem hp3.1
    refine hw_text e j2 (fun u hu => List.mem_append_left _ (hm3 u (List.mem_append_right _ (j3 u (List.mem_append_right _ hu))))) hd.2 ⟨rfl, ?_⟩
    refine erel_mod (g' := fun s => { s with tagHandle := some d.handle, tagSuffix := some (t.drop d.pfx.length) })
      (fun p => ⟨p.anchor, _, _, p.value, rfl⟩) (fun _ _ => rfl) fun p1 hI => ?_
    exact ⟨hI.anchor, into_live j1 fun u hu => List.mem_append_right _ (j3 u (List.mem_append_left _ hu)),
      into_live hs fun z hz => List.mem_append_left _ (hb z hz), hI.value⟩

theorem erel_analyzeProps {a t : Option Text} {p r : Ptr} {b c : Blocks} {use : Bool} (hs : StrAt (a.map textBytes) p b) (hb : ∀ z ∈ b, z ∈ x.2.2)
    (ha : ∀ y ∈ a, CText y) (hr : StrAt (t.map textBytes) r c) (hc : ∀ z ∈ c, z ∈ x.2.2) (ht : ∀ y ∈ t, CText y) :
    ERel W A base (EHas (x :: q) T (Texts x T sc)) (eAnalyzeProps W p r use) (analyzeProps a t use) (fun _ _ => EHas (x :: q) T (Texts x T sc)) := by
  unfold eAnalyzeProps analyzeProps
  refine erel_bind (R := fun _ _ => EHas (x :: q) T (Texts x T sc)) ?_ fun _ _ => ?_
  · cases a with
    | none =>
      obtain ⟨rfl, rfl⟩ := hs
      exact erel_pure fun _ _ _ h => h
    | some a =>
      have hp : p.isSome = true := by obtain ⟨a, _, rfl, _⟩ := hs; rfl
      rw [hp]
      exact erel_analyzeAnchor hs hb (ha a rfl)
  · refine erel_when ?_ fun _ _ _ h => h
    cases t with
    | none =>
      obtain ⟨rfl, rfl⟩ := hr
      exact erel_pure fun _ _ _ h => h
    | some t =>
      have hp : r.isSome = true := by obtain ⟨a, _, rfl, _⟩ := hr; rfl
      rw [hp]
      exact erel_analyzeTag hr hc (ht t rfl)

theorem erel_analyzeScalar {v : Text} {p : Ptr} {b : Blocks} (hs : StrAt (some (textBytes v)) p b) (hb : ∀ z ∈ b, z ∈ x.2.2) (hv : ∀ c ∈ v, c < 0x200000) :
    ERel W A base (EHas (x :: q) T (Texts x T sc)) (eAnalyzeScalar W p (textBytes v).length) (analyzeScalar v) (fun _ _ => EHas (x :: q) T (Texts x T True)) := by
  unfold eAnalyzeScalar
  refine erel_lift fun p0 s0 b0 fr h hp e hu => ?_
  refine hw_textN e hs (fun z hz => List.mem_append_left _ (eat_mem hp.1 z (List.mem_append_left _ (hb z hz)))) hv ⟨rfl, ?_⟩
  refine erel_thenMod (erel_calm (frames_analyzeScalar v) fun _ => ⟨rfl, rfl, rfl⟩) (fun _ => rfl) ?_
  rintro u p1 s1 b1 ⟨h1, h2⟩
  refine ⟨h1, ⟨h2.anchor, h2.handle, h2.suffix, fun _ => ?_⟩⟩
  obtain ⟨a, z, rfl, rfl⟩ := hs
  exact ⟨a, _, rfl, List.mem_append_left _ (hb _ List.mem_cons_self)⟩

def EvData.isScalar : EvData → Prop
  | .scalar .. => True
  | _ => False

theorem pointed_false {B : Blocks} {p : HEm ω} (h : Pointed B False p) {sc : Prop} (hs : ¬ sc) : Pointed B sc p :=
  ⟨h.anchor, h.handle, h.suffix, fun x => absurd x hs⟩

theorem erel_analyzeEvent : ERel W A base (EHas (x :: q) T fun _ => True) (eAnalyzeEvent W x.2.1) (analyzeEvent x.1)
    (fun _ _ => EHas (x :: q) T (Texts x T x.1.isScalar)) := by
  unfold eAnalyzeEvent analyzeEvent
  intro p s b fr h hp
  have hx := eat_ok hp.1
  revert p s b fr h hp
  show ERel W A base _ _ _ _
  refine erel_bind (R := fun _ _ => EHas (x :: q) T (Texts x T False)) ?_ fun _ _ => ?_
  · refine erel_mod (g' := fun s => { s with anchor := none, tagHandle := none, tagSuffix := none, scalar := { s.scalar with value := [] } })
      (fun p => ⟨_, _, _, _, rfl⟩) (fun _ _ => rfl) fun p1 _ => ?_
    exact ⟨.inl rfl, .inl rfl, .inl rfl, nofun⟩
  refine erel_get fun p1 s1 b1 hp1 => ?_
  refine erel_pre (P := EHas (x :: q) T (Texts x T False)) ?_ fun _ _ _ hh => hh.1
  have hcan : s1.canonical = p1.val.canonical := by rw [hp1.val]; rfl
  rw [hcan]
  obtain ⟨ev, e, be⟩ := x
  obtain ⟨hat, hleg⟩ := hx
  have fin : ∀ {m : HE ω Unit} {v : EM Unit}, ¬ ev.isScalar → ERel W A base (EHas ((ev, e, be) :: q) T (Texts (ev, e, be) T False)) m v
      (fun _ _ => EHas ((ev, e, be) :: q) T (Texts (ev, e, be) T False)) → ERel W A base (EHas ((ev, e, be) :: q) T (Texts (ev, e, be) T False)) m v
      (fun _ _ => EHas ((ev, e, be) :: q) T (Texts (ev, e, be) T ev.isScalar)) :=
    fun hn hr => erel_post hr fun _ _ _ _ _ hh => ⟨hh.1, pointed_false hh.2 hn⟩
  cases ev with
  | streamStart _ => obtain ⟨rfl, _⟩ := hat; exact fin (fun h => h) (erel_pure fun _ _ _ h => h)
  | streamEnd => obtain ⟨rfl, _⟩ := hat; exact fin (fun h => h) (erel_pure fun _ _ _ h => h)
  | documentStart _ _ _ => obtain ⟨_, _, _, _, rfl, _⟩ := hat; exact fin (fun h => h) (erel_pure fun _ _ _ h => h)
  | documentEnd _ => obtain ⟨rfl, _⟩ := hat; exact fin (fun h => h) (erel_pure fun _ _ _ h => h)
  | sequenceEnd => obtain ⟨rfl, _⟩ := hat; exact fin (fun h => h) (erel_pure fun _ _ _ h => h)
  | mappingEnd => obtain ⟨rfl, _⟩ := hat; exact fin (fun h => h) (erel_pure fun _ _ _ h => h)
  | «alias» a =>
    obtain ⟨p, rfl, hs⟩ := hat
    exact fin (fun h => h) (erel_analyzeAnchor hs (fun z hz => hz) hleg)
  | scalar a t v pi qi st =>
    obtain ⟨p, r, u, b1, b2, b3, rfl, hs, hr, hu, hb⟩ := hat
    simp only at hb
    refine erel_bind (erel_analyzeProps (sc := False) hs ?_ hleg.1 hr ?_ hleg.2.1) fun _ _ => erel_analyzeScalar hu ?_ hleg.2.2
    · intro z hz; rw [hb]; simp [hz]
    · intro z hz; rw [hb]; simp [hz]
    · intro z hz; rw [hb]; simp [hz]
  | sequenceStart a t i st =>
    obtain ⟨p, r, b1, b2, rfl, hs, hr, hb⟩ := hat
    simp only at hb
    refine fin (fun h => h) (erel_analyzeProps hs ?_ hleg.1 hr ?_ hleg.2)
    · intro z hz; rw [hb]; simp [hz]
    · intro z hz; rw [hb]; simp [hz]
  | mappingStart a t i st =>
    obtain ⟨p, r, b1, b2, rfl, hs, hr, hb⟩ := hat
    simp only at hb
    refine fin (fun h => h) (erel_analyzeProps hs ?_ hleg.1 hr ?_ hleg.2)
    · intro z hz; rw [hb]; simp [hz]
    · intro z hz; rw [hb]; simp [hz]

end

end LibYaml
