import Verif.Proofs.EmitterHeapStates

/-!
# The emitter on the heap: documents, the queue, and the calls
-/

namespace LibYaml

open Spec

variable {ω α α' β β' : Type}

theorem steady_fail {p : String} : Steady (failE p : EM α) := fun _ => ⟨rfl, rfl, rfl⟩

theorem steady_some {x : Option α} {f : α → EM Unit} (h : ∀ a, Steady (f a)) : Steady (someE x f) := by
  cases x with
  | none => exact steady_pure ()
  | some a => exact h a

theorem steady_analyzeVersion (v : Version) : Steady (analyzeVersion v) := steady_ite steady_fail (steady_pure ())

theorem steady_analyzeTagDirective (d : TagDir) : Steady (analyzeTagDirective d) :=
  steady_ite steady_fail (steady_ite steady_fail (steady_ite steady_fail (steady_ite steady_fail (steady_ite steady_fail (steady_pure ())))))

theorem steady_out (op : EOp) : Steady (opE op) := fun _ => ⟨rfl, rfl, rfl⟩

/-! ### Reading the directives of an event -/

section
variable {A : Prop} {base : Nat → Option Obj} {bs : Blocks} {h : Heap}

theorem hw_version {v : Option Version} {p : Ptr} {x : Blocks} {Q : Option Version → Heap → Prop} (e : Ext A base bs h) (hv : VersionAt v p x)
    (hx : ∀ z ∈ x, z ∈ bs) (hQ : Q v h) : hw (hVersion p) Q h := by
  cases v with
  | none =>
    obtain ⟨rfl, rfl⟩ := hv
    exact hQ
  | some v =>
    obtain ⟨a, rfl, rfl⟩ := hv
    unfold hVersion
    rw [hw_bind]
    exact hw_load e (hx _ List.mem_cons_self) hQ

theorem tagsAt_top {ds : List TagDir} {s : HStk} {b : Blocks} (h : TagsAt (ds.map dirText) s b) : s.top = ds.length := by
  unfold TagsAt at h
  split at h
  · rename_i hn
    rw [h.1, List.map_eq_nil_iff.mp hn]
    rfl
  · obtain ⟨a, n, vs, b', rfl, j, _⟩ := h
    have := dirsAt_length j
    rw [List.length_map] at this
    exact this

end

section
variable {W : OutH ω} {A : Prop} {base : Nat → Option Obj} {x : QEv} {q : List QEv} {T : Blocks} {I : HEm ω → Prop}

theorem EQue.val {p : HEm ω} {s : Emitter} {b : Blocks} (h : EQue q p s b) : s = p.val.hold s.held := by
  obtain ⟨T, h⟩ := h
  exact h.val

theorem erel_qfields {k' : HEm ω → HE ω β'} {k : Emitter → EM β} {Q : β' → β → HEm ω → Emitter → Blocks → Prop}
    (h : ∀ (p : HEm ω) (y : Held), ERel W A base (EQue q) (k' p) (k (p.val.hold y)) Q) : ERel W A base (EQue q) (eGet >>= k') (getE >>= k) Q := by
  refine erel_get fun p s b hp => ?_
  rw [hp.val]
  exact erel_pre (h p s.held) fun _ _ _ hh => hh.1

theorem eque_mem {p : HEm ω} {s : Emitter} {b : Blocks} (h : EQue (x :: q) p s b) : ∀ z ∈ x.2.2, z ∈ b := by
  obtain ⟨T, h⟩ := h
  exact fun z hz => eat_mem h.1 z (List.mem_append_left _ hz)

theorem erel_qcalm {m : EM Unit} (hm : Frames m) (hk : Steady m) : ERel W A base (EQue q) (eRun W m) m (fun _ _ => EQue q) :=
  erel_que fun _ => erel_calm hm hk

theorem erel_qcalmB {m : EM Unit} {k' : Unit → HE ω β'} {k : Unit → EM β} {Q : β' → β → HEm ω → Emitter → Blocks → Prop} (hm : Frames m)
    (hk : Steady m) (h : ERel W A base (EQue q) (k' ()) (k ()) Q) : ERel W A base (EQue q) (eRun W m >>= k') (m >>= k) Q :=
  erel_bind (erel_qcalm hm hk) fun _ _ => h

theorem erel_appendTags {ds : List TagDir} {vs pre : List (Ptr × Ptr)} {y : Blocks} {a n top k i : Nat} (ha : (a, stkObj (pre ++ vs) n) ∈ x.2.2)
    (hy : ∀ z ∈ y, z ∈ x.2.2) (hd : DirsAt (ds.map dirText) vs y) (hc : ∀ d ∈ ds, LDir d) (hk : k = vs.length) (hi : i = pre.length) :
    ERel W A base (EQue (x :: q)) (eAppendTags W ⟨some a, top⟩ k i) (appendTags ds) (fun _ _ => EQue (x :: q)) := by
  induction ds generalizing vs pre y k i with
  | nil =>
    obtain ⟨rfl, rfl⟩ := hd
    subst hk
    exact erel_pure fun _ _ _ hh => hh
  | cons d ds ih =>
    obtain ⟨p, r, vs', x1, y1, rest, rfl, j1, j2, j3, rfl⟩ := hd
    rw [List.length_cons] at hk
    subst hk
    have hl := hc d List.mem_cons_self
    have m1 : ∀ z ∈ x1, z ∈ x.2.2 := fun z hz => hy z (List.mem_append_left _ hz)
    have m2 : ∀ z ∈ y1, z ∈ x.2.2 := fun z hz => hy z (List.mem_append_right _ (List.mem_append_left _ hz))
    unfold eAppendTags appendTags
    refine erel_lift fun p0 s0 b0 fr h hp e hu => ?_
    have hm := eque_mem hp
    refine hw_get (v := (p, r)) e (List.mem_append_left _ (hm _ ha)) (by rw [hi]; simp) ⟨rfl, ?_⟩
    refine erel_lift fun p0 s0 b0 fr h hp e hu => ?_
    have hm := eque_mem hp
    refine hw_text e j1 (fun z hz => List.mem_append_left _ (hm z (m1 z hz))) hl.1 ⟨rfl, ?_⟩
    refine erel_lift fun p0 s0 b0 fr h hp e hu => ?_
    have hm := eque_mem hp
    refine hw_text e j2 (fun z hz => List.mem_append_left _ (hm z (m2 z hz))) hl.2 ⟨rfl, ?_⟩
    refine erel_qcalmB (frames_analyzeTagDirective d) (steady_analyzeTagDirective d) ?_
    refine erel_lift fun p0 s0 b0 fr h hp e hu => ?_
    have hm := eque_mem hp
    refine hw_bytesStr e j1 (fun z hz => List.mem_append_left _ (hm z (m1 z hz))) hl.1 ⟨rfl, ?_⟩
    refine erel_lift fun p0 s0 b0 fr h hp e hu => ?_
    have hm := eque_mem hp
    refine hw_bytesStr e j2 (fun z hz => List.mem_append_left _ (hm z (m2 z hz))) hl.2 ⟨rfl, ?_⟩
    refine erel_bind (erel_appendTag hl) fun _ _ => ?_
    exact ih (pre := pre ++ [(p, r)]) (by simpa using ha) (fun z hz => hy z (List.mem_append_right _ (List.mem_append_right _ hz))) j3
      (fun d hd => hc d (List.mem_cons_of_mem _ hd)) rfl (by rw [hi]; simp)

theorem erel_writeTags {ds : List TagDir} {vs pre : List (Ptr × Ptr)} {y : Blocks} {a n top k i : Nat} (ha : (a, stkObj (pre ++ vs) n) ∈ x.2.2)
    (hy : ∀ z ∈ y, z ∈ x.2.2) (hd : DirsAt (ds.map dirText) vs y) (hc : ∀ d ∈ ds, LDir d) (hk : k = vs.length) (hi : i = pre.length) :
    ERel W A base (EQue (x :: q)) (eWriteTags W ⟨some a, top⟩ k i) (writeTags ds) (fun _ _ => EQue (x :: q)) := by
  induction ds generalizing vs pre y k i with
  | nil =>
    obtain ⟨rfl, rfl⟩ := hd
    subst hk
    exact erel_pure fun _ _ _ hh => hh
  | cons d ds ih =>
    obtain ⟨p, r, vs', x1, y1, rest, rfl, j1, j2, j3, rfl⟩ := hd
    rw [List.length_cons] at hk
    subst hk
    have hl := hc d List.mem_cons_self
    have m1 : ∀ z ∈ x1, z ∈ x.2.2 := fun z hz => hy z (List.mem_append_left _ hz)
    have m2 : ∀ z ∈ y1, z ∈ x.2.2 := fun z hz => hy z (List.mem_append_right _ (List.mem_append_left _ hz))
    unfold eWriteTags writeTags
    refine erel_qcalmB (frames_writeIndicator _ _ _ _) (quiet_writeIndicator _ _ _ _).steady ?_
    refine erel_lift fun p0 s0 b0 fr h hp e hu => ?_
    have hm := eque_mem hp
    refine hw_get (v := (p, r)) e (List.mem_append_left _ (hm _ ha)) (by rw [hi]; simp) ⟨rfl, ?_⟩
    refine erel_lift fun p0 s0 b0 fr h hp e hu => ?_
    have hm := eque_mem hp
    refine hw_text e j1 (fun z hz => List.mem_append_left _ (hm z (m1 z hz))) hl.1 ⟨rfl, ?_⟩
    refine erel_qcalmB (frames_writeTagHandle _) (quiet_writeTagHandle _).steady ?_
    refine erel_lift fun p0 s0 b0 fr h hp e hu => ?_
    have hm := eque_mem hp
    refine hw_text e j2 (fun z hz => List.mem_append_left _ (hm z (m2 z hz))) hl.2 ⟨rfl, ?_⟩
    refine erel_qcalmB (frames_writeTagContent _ _) (quiet_writeTagContent _ _).steady ?_
    refine erel_qcalmB frames_writeIndent quiet_writeIndent.steady ?_
    exact ih (pre := pre ++ [(p, r)]) (by simpa using ha) (fun z hz => hy z (List.mem_append_right _ (List.mem_append_right _ hz))) j3
      (fun d hd => hc d (List.mem_cons_of_mem _ hd)) rfl (by rw [hi]; simp)

theorem erel_addDefaults {ds : List TagDir} (hc : ∀ d ∈ ds, LDir d) :
    ERel W A base (EQue q) (eAddDefaults ds) (addDefaults ds) (fun _ _ => EQue q) := by
  induction ds with
  | nil => exact erel_pure fun _ _ _ hh => hh
  | cons d ds ih =>
    unfold eAddDefaults addDefaults
    exact erel_bind (erel_appendTag (hc d List.mem_cons_self)) fun _ _ => ih fun d hd => hc d (List.mem_cons_of_mem _ hd)

theorem defaults_legible : ∀ d ∈ emitterDefaultTags, LDir d := by
  unfold LDir CText
  decide

theorem erel_documentStartEvent {v : Option Version} {ts : List TagDir} {i first : Bool} {p : Ptr} {st : HStk} {x1 x2 : Blocks}
    (hv : VersionAt v p x1) (ht : TagsAt (ts.map dirText) st x2) (hx : x.2.2 = x1 ++ x2) (hc : ∀ d ∈ ts, LDir d) :
    ERel W A base (EQue (x :: q)) (eDocumentStartEvent W p st i first) (emitDocumentStartEvent v ts i first) (fun _ _ => EQue (x :: q)) := by
  unfold eDocumentStartEvent emitDocumentStartEvent
  have htop := tagsAt_top ht
  have e1 : p.isSome = v.isSome := by
    cases v with
    | none => obtain ⟨rfl, _⟩ := hv; rfl
    | some v => obtain ⟨a, rfl, _⟩ := hv; rfl
  have e2 : p.isNone = v.isNone := by
    cases v with
    | none => obtain ⟨rfl, _⟩ := hv; rfl
    | some v => obtain ⟨a, rfl, _⟩ := hv; rfl
  have e3 : decide (st.top ≠ 0) = !ts.isEmpty := by rw [htop]; cases ts <;> simp
  have e4 : decide (st.top = 0) = ts.isEmpty := by rw [htop]; cases ts <;> simp
  have tags : ERel W A base (EQue (x :: q)) (eAppendTags W st st.top 0) (appendTags ts) (fun _ _ => EQue (x :: q)) ∧
      ERel W A base (EQue (x :: q)) (eWriteTags W st st.top 0) (writeTags ts) (fun _ _ => EQue (x :: q)) := by
    cases ts with
    | nil =>
      rw [htop]
      exact ⟨erel_pure fun _ _ _ hh => hh, erel_pure fun _ _ _ hh => hh⟩
    | cons t ts =>
      unfold TagsAt at ht
      rw [if_neg (by simp)] at ht
      obtain ⟨a, n, vs, y, rfl, j1, rfl⟩ := ht
      have ma : (a, stkObj vs n) ∈ x.2.2 := by rw [hx]; simp
      have my : ∀ z ∈ y, z ∈ x.2.2 := by intro z hz; rw [hx]; simp [hz]
      exact ⟨erel_appendTags (pre := []) ma my j1 hc rfl rfl, erel_writeTags (pre := []) ma my j1 hc rfl rfl⟩
  simp only [e1, e2, e3, e4]
  refine erel_lift fun p0 s0 b0 fr h hp e hu => ?_
  have hm := eque_mem hp
  refine hw_version e hv (fun z hz => List.mem_append_left _ (hm z (by rw [hx]; simp [hz]))) ⟨rfl, ?_⟩
  refine erel_qcalmB (Frames.some frames_analyzeVersion) (steady_some steady_analyzeVersion) ?_
  refine erel_bind tags.1 fun _ _ => ?_
  refine erel_bind (erel_addDefaults defaults_legible) fun _ _ => ?_
  refine erel_qfields fun p1 y1 => ?_
  refine erel_bind (R := fun _ _ => EQue (x :: q)) (erel_when (erel_qcalm ((frames_writeIndicator _ _ _ _).bind fun _ => frames_writeIndent)
    (steady_bind (quiet_writeIndicator _ _ _ _).steady fun _ => quiet_writeIndent.steady)) fun _ _ _ hh => hh) fun _ _ => ?_
  refine erel_qcalmB (Frames.mod fun _ _ => rfl) (steady_mod fun _ => ⟨rfl, rfl, rfl⟩) ?_
  refine erel_qcalmB (Frames.some frames_writeVersion) (steady_some fun v => (quiet_writeVersion v).steady) ?_
  refine erel_bind tags.2 fun _ _ => ?_
  refine erel_qfields fun p1 y1 => ?_
  refine erel_bind (R := fun _ _ => EQue (x :: q)) (erel_when (erel_qcalm (frames_writeIndent.bind fun _ => (frames_writeIndicator _ _ _ _).bind fun _ =>
      Frames.get (fun _ _ => rfl) fun _ => Frames.when frames_writeIndent)
    (steady_bind quiet_writeIndent.steady fun _ => steady_bind (quiet_writeIndicator _ _ _ _).steady fun _ => steady_bind steady_get fun _ =>
      steady_when quiet_writeIndent.steady)) fun _ _ _ hh => hh) fun _ _ => ?_
  refine erel_bind (R := fun _ _ => EQue (x :: q)) (erel_que fun T => erel_set) fun _ _ => ?_
  exact erel_qcalm (Frames.mod fun _ _ => rfl) (steady_mod fun _ => ⟨rfl, rfl, rfl⟩)

theorem erel_streamStart : ERel W A base (Cur x q T) (eStreamStart W x.2.1) (emitStreamStart x.1) (fun _ _ => Cur x q T) := by
  refine erel_head fun hx => ?_
  unfold eStreamStart emitStreamStart
  refine erel_calmB (Frames.mod fun _ _ => rfl) (steady_mod fun _ => ⟨rfl, rfl, rfl⟩) ?_
  obtain ⟨ev, he, be⟩ := x
  obtain ⟨hat, _⟩ := hx
  cases ev with
  | streamStart _ =>
    obtain ⟨rfl, _⟩ := hat
    exact erel_calm ((Frames.mod fun _ _ => rfl).bind fun _ => Frames.get (fun _ _ => rfl) fun _ => (Frames.when frames_writeBom).bind fun _ =>
        Frames.mod fun _ _ => rfl)
      (steady_bind (steady_mod fun _ => ⟨rfl, rfl, rfl⟩) fun _ => steady_bind steady_get fun _ => steady_bind (steady_when quiet_writeBom.steady) fun _ =>
        steady_mod fun _ => ⟨rfl, rfl, rfl⟩)
  | streamEnd => obtain ⟨rfl, _⟩ := hat; exact erel_fail fun _ _ _ hh => hh.own
  | documentStart _ _ _ => obtain ⟨_, _, _, _, rfl, _⟩ := hat; exact erel_fail fun _ _ _ hh => hh.own
  | documentEnd _ => obtain ⟨rfl, _⟩ := hat; exact erel_fail fun _ _ _ hh => hh.own
  | «alias» _ => obtain ⟨_, rfl, _⟩ := hat; exact erel_fail fun _ _ _ hh => hh.own
  | scalar _ _ _ _ _ _ => obtain ⟨_, _, _, _, _, _, rfl, _⟩ := hat; exact erel_fail fun _ _ _ hh => hh.own
  | sequenceStart _ _ _ _ => obtain ⟨_, _, _, _, rfl, _⟩ := hat; exact erel_fail fun _ _ _ hh => hh.own
  | sequenceEnd => obtain ⟨rfl, _⟩ := hat; exact erel_fail fun _ _ _ hh => hh.own
  | mappingStart _ _ _ _ => obtain ⟨_, _, _, _, rfl, _⟩ := hat; exact erel_fail fun _ _ _ hh => hh.own
  | mappingEnd => obtain ⟨rfl, _⟩ := hat; exact erel_fail fun _ _ _ hh => hh.own

theorem erel_streamEnd : ERel W A base (EQue q) (eRun W emitStreamEndEvent) emitStreamEndEvent (fun _ _ => EQue q) := by
  unfold emitStreamEndEvent
  refine erel_qcalm (Frames.get (fun _ _ => rfl) fun _ => (Frames.when ((frames_writeIndicator _ _ _ _).bind fun _ => (Frames.mod fun _ _ => rfl).bind fun _ =>
      frames_writeIndent)).bind fun _ => (Frames.out _).bind fun _ => Frames.mod fun _ _ => rfl) ?_
  exact steady_bind steady_get fun _ => steady_bind (steady_when (steady_bind (quiet_writeIndicator _ _ _ _).steady fun _ =>
    steady_bind (steady_mod fun _ => ⟨rfl, rfl, rfl⟩) fun _ => quiet_writeIndent.steady)) fun _ => steady_bind (steady_out _) fun _ =>
      steady_mod fun _ => ⟨rfl, rfl, rfl⟩

theorem erel_qhead {m : HE ω α'} {v : EM α} {Q : α' → α → HEm ω → Emitter → Blocks → Prop} (h : QOk x → ERel W A base (EQue (x :: q)) m v Q) :
    ERel W A base (EQue (x :: q)) m v Q := by
  intro p s b fr h' hp e hu
  have hp' := hp
  obtain ⟨T, hp⟩ := hp
  exact h (eat_ok hp.1) p s b fr h' hp' e hu

theorem erel_documentStart {first : Bool} :
    ERel W A base (EQue (x :: q)) (eDocumentStart W x.2.1 first) (emitDocumentStart x.1 first) (fun _ _ => EQue (x :: q)) := by
  refine erel_qhead fun hx => ?_
  obtain ⟨ev, he, be⟩ := x
  obtain ⟨hat, hleg⟩ := hx
  cases ev with
  | streamStart _ => obtain ⟨rfl, _⟩ := hat; exact erel_fail fun _ _ _ hh => hh.own
  | streamEnd => obtain ⟨rfl, _⟩ := hat; exact erel_streamEnd
  | documentStart _ _ _ =>
    obtain ⟨_, _, _, _, rfl, h1, h2, h3⟩ := hat
    exact erel_documentStartEvent h1 h2 h3 hleg
  | documentEnd _ => obtain ⟨rfl, _⟩ := hat; exact erel_fail fun _ _ _ hh => hh.own
  | «alias» _ => obtain ⟨_, rfl, _⟩ := hat; exact erel_fail fun _ _ _ hh => hh.own
  | scalar _ _ _ _ _ _ => obtain ⟨_, _, _, _, _, _, rfl, _⟩ := hat; exact erel_fail fun _ _ _ hh => hh.own
  | sequenceStart _ _ _ _ => obtain ⟨_, _, _, _, rfl, _⟩ := hat; exact erel_fail fun _ _ _ hh => hh.own
  | sequenceEnd => obtain ⟨rfl, _⟩ := hat; exact erel_fail fun _ _ _ hh => hh.own
  | mappingStart _ _ _ _ => obtain ⟨_, _, _, _, rfl, _⟩ := hat; exact erel_fail fun _ _ _ hh => hh.own
  | mappingEnd => obtain ⟨rfl, _⟩ := hat; exact erel_fail fun _ _ _ hh => hh.own

theorem erel_endDocument : ERel W A base (EQue q) eEndDocument (modE fun s => { s with state := .documentStart, tags := [] }) (fun _ _ => EQue q) := by
  intro p s b fr h hp e hu
  obtain ⟨T, ⟨x1, x2, x3, x4, x5, x6, k1, k2, k3, k4, k5, k6, k7, k8, k9, k10, hb⟩, _⟩ := hp
  obtain ⟨a, n, vs, k11, k12, k13, k14⟩ := k8
  unfold eEndDocument
  rw [hw_bind, k11]
  refine hw_dropTags (n := n) (bs' := (qBlocks q ++ (x1 ++ (x2 ++ (x3 ++ (x5 ++ x6))))) ++ fr) k13 e (by rw [k14] at hb; blocks_by hb) fun h' n' hn e' => ?_
  rw [hw_pure]
  refine ⟨(), qBlocks q ++ ([] ++ (x1 ++ (x2 ++ (x3 ++ ([(a, stkObj ([] : List (Ptr × Ptr)) n')] ++ (x5 ++ x6)))))), rfl, rfl,
    ⟨[], ⟨x1, x2, x3, _, x5, x6, congrArg (fun t : Emitter => { t with state := EState.documentStart, tags := [] }) k1, k2, k3,
      (fun d hd => by cases hd), k5, k6, k7, ⟨a, n', [], rfl, .inr ?_, ⟨rfl, rfl⟩, rfl⟩, k9, k10, List.Perm.refl _⟩, trivial⟩, e'.perm (by blocks)⟩
  rcases k12 with k | k
  · have : vs.length ≠ 0 := fun hx => k (List.length_eq_zero_iff.mp hx)
    omega
  · omega

theorem erel_documentEnd : ERel W A base (EQue (x :: q)) (eDocumentEnd W x.2.1) (emitDocumentEnd x.1) (fun _ _ => EQue (x :: q)) := by
  refine erel_qhead fun hx => ?_
  obtain ⟨ev, he, be⟩ := x
  obtain ⟨hat, _⟩ := hx
  cases ev with
  | streamStart _ => obtain ⟨rfl, _⟩ := hat; exact erel_fail fun _ _ _ hh => hh.own
  | streamEnd => obtain ⟨rfl, _⟩ := hat; exact erel_fail fun _ _ _ hh => hh.own
  | documentStart _ _ _ => obtain ⟨_, _, _, _, rfl, _⟩ := hat; exact erel_fail fun _ _ _ hh => hh.own
  | documentEnd i =>
    obtain ⟨rfl, _⟩ := hat
    unfold eDocumentEnd emitDocumentEnd
    refine erel_qcalmB frames_writeIndent quiet_writeIndent.steady ?_
    refine erel_qcalmB (Frames.ite ((frames_writeIndicator _ _ _ _).bind fun _ => (Frames.mod fun _ _ => rfl).bind fun _ => frames_writeIndent)
        (Frames.mod fun _ _ => rfl))
      (steady_ite (steady_bind (quiet_writeIndicator _ _ _ _).steady fun _ => steady_bind (steady_mod fun _ => ⟨rfl, rfl, rfl⟩) fun _ =>
        quiet_writeIndent.steady) (steady_mod fun _ => ⟨rfl, rfl, rfl⟩)) ?_
    exact erel_qcalmB (Frames.out _) (steady_out _) erel_endDocument
  | «alias» _ => obtain ⟨_, rfl, _⟩ := hat; exact erel_fail fun _ _ _ hh => hh.own
  | scalar _ _ _ _ _ _ => obtain ⟨_, _, _, _, _, _, rfl, _⟩ := hat; exact erel_fail fun _ _ _ hh => hh.own
  | sequenceStart _ _ _ _ => obtain ⟨_, _, _, _, rfl, _⟩ := hat; exact erel_fail fun _ _ _ hh => hh.own
  | sequenceEnd => obtain ⟨rfl, _⟩ := hat; exact erel_fail fun _ _ _ hh => hh.own
  | mappingStart _ _ _ _ => obtain ⟨_, _, _, _, rfl, _⟩ := hat; exact erel_fail fun _ _ _ hh => hh.own
  | mappingEnd => obtain ⟨rfl, _⟩ := hat; exact erel_fail fun _ _ _ hh => hh.own

/-- The state machine. -/
theorem erel_step : ERel W A base (Cur x q T) (eStep W x.2.1) (emitterStep x.1) (fun _ _ => EQue (x :: q)) := by
  unfold eStep emitterStep
  refine erel_get fun p s b hp => ?_
  have hs : s.state = p.val.state := by rw [hp.val]; rfl
  rw [hs]
  refine erel_pre (P := Cur x q T) ?_ fun _ _ _ hh => hh.1
  have weak : ∀ (p : HEm ω) s b, Cur x q T p s b → EQue (x :: q) p s b := fun _ _ _ hh => ⟨T, hh.1, trivial⟩
  cases p.val.state with
  | streamStart => exact erel_done erel_streamStart
  | firstDocumentStart => exact erel_pre erel_documentStart weak
  | documentStart => exact erel_pre erel_documentStart weak
  | documentContent =>
    unfold eDocumentContent emitDocumentContent
    exact erel_done (erel_bind erel_push fun _ _ => erel_node)
  | documentEnd => exact erel_pre erel_documentEnd weak
  | flowSequenceFirstItem => exact erel_done erel_flowSequence
  | flowSequenceItem => exact erel_done erel_flowSequence
  | flowMappingFirstKey => exact erel_done erel_flowMappingKey
  | flowMappingKey => exact erel_done erel_flowMappingKey
  | flowMappingSimpleValue => exact erel_done erel_flowValue
  | flowMappingValue => exact erel_done erel_flowValue
  | blockSequenceFirstItem => exact erel_done erel_blockSequence
  | blockSequenceItem => exact erel_done erel_blockSequence
  | blockMappingFirstKey => exact erel_done erel_blockMappingKey
  | blockMappingKey => exact erel_done erel_blockMappingKey
  | blockMappingSimpleValue => exact erel_done erel_blockValue
  | blockMappingValue => exact erel_done erel_blockValue
  | ended => exact erel_fail fun _ _ _ hh => hh.own

end

/-! ### The queue -/

theorem levelChange_kind {ev : EvData} {e : HEvent} {b : Blocks} (h : EventAt ev e b) : hLevelChange e = levelChange ev := by
  have := eventAt_kind h
  revert this
  cases ev <;> cases e <;> simp [HEvent.kind, EvData.kind, hLevelChange, levelChange]

theorem accumulate_kind {ev : EvData} {e : HEvent} {b : Blocks} (h : EventAt ev e b) : hAccumulate e = accumulate ev := by
  have := eventAt_kind h
  revert this
  cases ev <;> cases e <;> simp [HEvent.kind, EvData.kind, hAccumulate, accumulate]

section
variable {A : Prop} {base : Nat → Option Obj} {bs : Blocks} {h : Heap} {x2 : Blocks} {r : HQue}

theorem hw_levelLoop {pre q : List QEv} {n i : Nat} {l : Int} {Q : Bool → Heap → Prop} (hq : QueAt ((pre ++ q).map fun x => x.2.1) r x2) (e : Ext A base bs h)
    (hx : ∀ z ∈ x2, z ∈ bs) (hok : ∀ x ∈ q, QOk x) (hn : n = q.length) (hi : i = pre.length) (hQ : Q (levelLoop (q.map Prod.fst) l) h) :
    hw (hLevelLoop r n i l) Q h := by
  induction q generalizing pre n i l with
  | nil => subst hn; exact hQ
  | cons x q ih =>
    rw [List.length_cons] at hn
    subst hn
    unfold hLevelLoop
    rw [hw_bind]
    refine hw_qAt (v := x.2.1) hq e hx (by rw [hi]; simp) ?_
    rw [levelChange_kind (hok x List.mem_cons_self).1, hw_ite]
    simp only [List.map_cons, levelLoop] at hQ
    split
    · rename_i hl; rw [if_pos hl] at hQ; exact hQ
    · rename_i hl
      rw [if_neg hl] at hQ
      exact ih (pre := pre ++ [x]) (by simpa using hq) (fun y hy => hok y (List.mem_cons_of_mem _ hy)) rfl (by rw [hi]; simp) hQ

theorem hw_needMore {q : List QEv} {Q : Bool → Heap → Prop} (hq : QueAt (q.map fun x => x.2.1) r x2) (e : Ext A base bs h)
    (hx : ∀ z ∈ x2, z ∈ bs) (hok : ∀ x ∈ q, QOk x) (hQ : Q (needMore (q.map Prod.fst)) h) : hw (hNeedMore r) Q h := by
  have hl := queAt_length hq
  rw [List.length_map] at hl
  have hht : r.head = r.tail ↔ q = [] := by
    obtain ⟨a, i, n, rfl, _, _⟩ := hq
    simp
  unfold hNeedMore
  rw [hw_ite]
  cases q with
  | nil => rw [if_pos (hht.mpr rfl)]; exact hQ
  | cons x q =>
    rw [if_neg (fun hx => by cases hht.mp hx), hw_bind]
    refine hw_qAt (v := x.2.1) (i := 0) hq e hx rfl ?_
    rw [accumulate_kind (hok x List.mem_cons_self).1]
    unfold needMore at hQ
    simp only [List.map_cons] at hQ
    cases ha : accumulate x.1 with
    | none => rw [ha] at hQ; exact hQ
    | some n =>
      simp only [ha] at hQ ⊢
      rw [hl, hw_ite]
      by_cases hg : (x :: q).length > n
      · rw [if_pos hg]
        rw [if_pos (by simpa using hg)] at hQ
        exact hQ
      · rw [if_neg hg]
        rw [if_neg (by simpa using hg)] at hQ
        exact hw_levelLoop (pre := []) hq e hx hok rfl rfl hQ

end

section
variable {W : OutH ω} {A : Prop} {base : Nat → Option Obj} {x : QEv} {q : List QEv}

theorem erel_dequeue : ERel W A base (EQue (x :: q)) eDequeue (modE fun s => { s with events := s.events.tail }) (fun _ _ => EQue q) := by
  intro p s b fr h hp e hu
  obtain ⟨T, ⟨x1, x2, x3, x4, x5, x6, k1, k2, k3, k4, k5, k6, k7, k8, k9, k10, hb⟩, _⟩ := hp
  unfold eDequeue
  rw [hw_bind]
  have hb' : b.Perm (x.2.2 ++ (qBlocks q ++ (T ++ (x1 ++ (x2 ++ (x3 ++ (x4 ++ (x5 ++ x6)))))))) := by
    refine hb.trans ?_
    unfold qBlocks
    rw [List.flatMap_cons, List.append_assoc]
  refine hw_qPop (bs' := x.2.2 ++ (qBlocks q ++ (T ++ (x1 ++ (x3 ++ (x4 ++ (x5 ++ x6))))) ++ fr)) k6 e (by blocks_by hb') fun h' q' x' j1 e' => ?_
  simp only []
  rw [hw_bind]
  refine hw_dropEvent (ev := x.1) (b := x.2.2) (bs := x' ++ (qBlocks q ++ (T ++ (x1 ++ (x3 ++ (x4 ++ (x5 ++ x6))))) ++ fr)) (e'.perm (by blocks))
    (k3 x List.mem_cons_self).1 fun h'' e'' => ?_
  rw [hw_pure]
  refine ⟨(), qBlocks q ++ (T ++ (x1 ++ (x' ++ (x3 ++ (x4 ++ (x5 ++ x6)))))), rfl, rfl, ⟨T, ⟨x1, x', x3, x4, x5, x6, ?_, ?_,
    fun y hy => k3 y (List.mem_cons_of_mem _ hy), k4, k5, j1, k7, k8, k9, k10, List.Perm.refl _⟩, trivial⟩, e''.perm (by blocks)⟩
  · exact congrArg (fun t : Emitter => { t with events := s.events.tail }) k1
  · show s.events.tail = _
    rw [k2]
    rfl

theorem eown_que {p : HEm ω} {s : Emitter} {b : Blocks} : EOwn p s b ↔ ∃ q, EQue q p s b := by
  constructor
  · rintro ⟨q, T, h⟩
    exact ⟨q, T, h, trivial⟩
  · rintro ⟨q, h⟩
    exact h.own

theorem eque_events {p : HEm ω} {s : Emitter} {b : Blocks} (h : EQue q p s b) : s.events = q.map Prod.fst := by
  obtain ⟨T, h⟩ := h
  exact eat_events h.1

theorem eque_length {p : HEm ω} {s : Emitter} {b : Blocks} (h : EQue q p s b) : p.events.tail - p.events.head = s.events.length := by
  have h1 := eque_events h
  obtain ⟨T, h⟩ := h
  obtain ⟨x2, h2, _⟩ := eat_queue h.1
  rw [queAt_length h2, h1, List.length_map, List.length_map]

/-- The loop over the queue. -/
theorem erel_loop {n : Nat} : ERel W A base EOwn (eLoop W n) (emitLoop n) (fun _ _ => EOwn) := by
  induction n with
  | zero => exact erel_pure fun _ _ _ hh => hh
  | succ n ih =>
    suffices hs : ∀ q, ERel W A base (EQue q) (eLoop W (n + 1)) (emitLoop (n + 1)) (fun _ _ => EOwn) by
      intro p s b fr h hp
      obtain ⟨q, hp⟩ := eown_que.mp hp
      exact hs q p s b fr h hp
    intro q
    unfold eLoop emitLoop
    refine erel_get fun p s b hp => ?_
    have hev := eque_events hp
    refine erel_lift fun p1 s1 b1 fr h hp1 e hu => ?_
    obtain ⟨hp1, rfl, rfl⟩ := hp1
    obtain ⟨T, hq⟩ := hp1
    obtain ⟨x2, h2, h3⟩ := eat_queue hq.1
    refine hw_needMore h2 e (fun z hz => List.mem_append_left _ (h3 z hz)) (eat_all hq.1) ⟨rfl, ?_⟩
    rw [hev]
    refine erel_ite Iff.rfl (fun _ => erel_pure fun _ _ _ hh => hh.1.own) fun hmore => ?_
    cases q with
    | nil => exact absurd rfl hmore
    | cons x q =>
      refine erel_lift fun p2 s2 b2 fr h hp2 e hu => ?_
      obtain ⟨hp2, rfl, rfl⟩ := hp2
      obtain ⟨T2, hq2⟩ := hp2
      obtain ⟨x3, h4, h5⟩ := eat_queue hq2.1
      refine hw_qAt (i := 0) (v := x.2.1) h4 e (fun z hz => List.mem_append_left _ (h5 z hz)) rfl ⟨rfl, ?_⟩
      simp only [List.map_cons]
      suffices hs : ∀ T, ERel W A base (EHas (x :: q) T fun _ => True) (do eAnalyzeEvent W x.2.1; eStep W x.2.1; eDequeue; eLoop W n)
          (do analyzeEvent x.1; emitterStep x.1; modE fun s => { s with events := s.events.tail }; emitLoop n) (fun _ _ => EOwn) by
        intro p3 s3 b3 fr3 h3 hp3
        obtain ⟨⟨T3, hq3⟩, _⟩ := hp3
        exact hs T3 p3 s3 b3 fr3 h3 hq3
      intro T
      refine erel_bind erel_analyzeEvent fun _ _ => ?_
      refine erel_bind erel_step fun _ _ => ?_
      refine erel_bind erel_dequeue fun _ _ => ?_
      exact erel_pre ih fun _ _ _ hh => hh.own

/-- An emitter, and an event for it. -/
def EGiven (ev : EvData) (e : HEvent) (p : HEm ω) (s : Emitter) (b : Blocks) : Prop :=
  ∃ be b0, EOwn p s b0 ∧ EventAt ev e be ∧ Legible ev ∧ b = be ++ b0

theorem erel_enqueue {ev : EvData} {e : HEvent} : ERel W A base (EGiven ev e) (eEnqueue e)
    (do opE .alloc; modE fun s => { s with events := s.events ++ [ev] }) (fun _ _ => EOwn) := by
  intro p s b fr h hp e' hu
  obtain ⟨be, b0, ⟨q, T, x1, x2, x3, x4, x5, x6, k1, k2, k3, k4, k5, k6, k7, k8, k9, k10, hb⟩, hat, hleg, rfl⟩ := hp
  unfold eEnqueue
  rw [hw_bind]
  refine hw_qPush (bs' := be ++ ((qBlocks q ++ (T ++ (x1 ++ (x3 ++ (x4 ++ (x5 ++ x6)))))) ++ fr)) k6 e' (by blocks_by hb) (fun h' e2 hA => ?_)
    fun h' q' x' j1 e2 => ?_
  · rw [hw_ite, if_neg (by simp), hw_bind]
    refine hw_dropEvent (ev := ev) (b := be) (bs := b0 ++ fr) (e2.perm (by blocks)) hat fun h3 e3 => ?_
    exact ⟨s, b0, ⟨q, T, x1, x2, x3, x4, x5, x6, k1, k2, k3, k4, k5, k6, k7, k8, k9, k10, hb⟩, e3, ⟨[], [], rfl, rfl⟩, fun a => absurd a hA⟩
  · rw [hw_ite, if_pos rfl, hw_pure]
    have hqb : qBlocks (q ++ [(ev, e, be)]) = qBlocks q ++ be := by simp [qBlocks]
    refine ⟨(), qBlocks (q ++ [(ev, e, be)]) ++ (T ++ (x1 ++ (x' ++ (x3 ++ (x4 ++ (x5 ++ x6)))))), rfl, rfl,
      ⟨q ++ [(ev, e, be)], T, x1, x', x3, x4, x5, x6, congrArg (fun t : Emitter => { t with events := s.events ++ [ev] }) k1, ?_, ?_, k4, k5,
        by simpa using j1, k7, k8, k9, k10, List.Perm.refl _⟩, e2.perm (by rw [hqb]; blocks)⟩
    · show s.events ++ [ev] = _
      rw [k2]
      simp
    · intro y hy
      rcases List.mem_append.mp hy with hy | hy
      · exact k3 y hy
      · rw [List.mem_singleton] at hy
        subst hy
        exact ⟨hat, hleg⟩

/-- One call of `yaml_emitter_emit`. -/
theorem erel_emit {ev : EvData} {e : HEvent} : ERel W A base (EGiven ev e) (eEmit W e) (emit ev) (fun _ _ => EOwn) := by
  have hv : emit ev = (do
      (do opE .alloc; modE fun s => { s with events := s.events ++ [ev] })
      emitLoop (← getE).events.length) := by
    funext s
    rfl
  rw [hv]
  unfold eEmit
  refine erel_bind erel_enqueue fun _ _ => ?_
  refine erel_get fun p s b hp => ?_
  obtain ⟨q, hq⟩ := eown_que.mp hp
  rw [eque_length hq]
  exact erel_pre erel_loop fun _ _ _ hh => hh.1

end

/-! ### The emitter object -/

section
variable {A : Prop} {base : Nat → Option Obj} {bs bs' : Blocks} {h : Heap}

theorem hw_emFree {o1 o2 o3 o4 o5 o6 : Ptr} {t3 t5 t6 i j : Nat} {y1 y2 y3 y4 y5 y6 : Blocks} {Q : Unit → Heap → Prop}
    (f1 : (o1 = none ∧ y1 = []) ∨ ∃ a o, o1 = some a ∧ y1 = [(a, o)]) (f2 : (o2 = none ∧ y2 = []) ∨ ∃ a o, o2 = some a ∧ y2 = [(a, o)])
    (f3 : (o3 = none ∧ y3 = []) ∨ ∃ a o, o3 = some a ∧ y3 = [(a, o)]) (f4 : (o4 = none ∧ y4 = []) ∨ ∃ a o, o4 = some a ∧ y4 = [(a, o)])
    (f5 : (o5 = none ∧ y5 = []) ∨ ∃ a o, o5 = some a ∧ y5 = [(a, o)]) (f6 : (o6 = none ∧ y6 = []) ∨ ∃ a o, o6 = some a ∧ y6 = [(a, o)])
    (e : Ext A base (y1 ++ (y2 ++ (y3 ++ (y4 ++ (y5 ++ (y6 ++ bs)))))) h) (hQ : ∀ h', Ext A base bs h' → Q () h') :
    hw (emFree o1 o2 ⟨o3, t3⟩ ⟨o4, i, j⟩ ⟨o5, t5⟩ ⟨o6, t6⟩) Q h := by
  have one : ∀ {o : Ptr} {y r : Blocks} {h : Heap} {Q : Unit → Heap → Prop}, ((o = none ∧ y = []) ∨ ∃ a o', o = some a ∧ y = [(a, o')]) →
      Ext A base (y ++ r) h → (∀ h', Ext A base r h' → Q () h') → hw (free o) Q h := by
    intro o y r h Q f e hQ
    rcases f with ⟨rfl, rfl⟩ | ⟨a, o', rfl, rfl⟩
    · exact hw_free_null (hQ h e)
    · exact hw_free e (List.Perm.refl _) hQ
  unfold emFree
  rw [hw_bind]; refine one f1 e fun h1 e1 => ?_
  rw [hw_bind]; refine one f2 e1 fun h2 e2 => ?_
  rw [hw_bind]; refine one f3 e2 fun h3 e3 => ?_
  rw [hw_bind]; refine one f4 e3 fun h4 e4 => ?_
  rw [hw_bind]; refine one f5 e4 fun h5 e5 => ?_
  exact one f6 e5 hQ

theorem hw_emitterInit {w : ω} {Q : Option (HEm ω) → Heap → Prop} (e : Ext A base bs h) (h0 : ∀ h', Ext A base bs h' → ¬ A → Q none h')
    (h1 : ∀ h' p b, EOwn p {} b → p.val = {} → p.world = w → Ext A base (b ++ bs) h' → Q (some p) h') : hw (emitterInit w) Q h := by
  have N : ((none : Ptr) = none ∧ ([] : Blocks) = []) ∨ ∃ a o, (none : Ptr) = some a ∧ ([] : Blocks) = [(a, o)] := .inl ⟨rfl, rfl⟩
  have S : ∀ (a : Nat) (o : Obj), (some a = none ∧ [(a, o)] = ([] : Blocks)) ∨ ∃ a' o', some a = some a' ∧ [(a, o)] = [(a', o')] :=
    fun a o => .inr ⟨a, o, rfl, rfl⟩
  unfold emitterInit
  rw [hw_bind]
  refine hw_malloc e (fun g1 e1 n => ?_) (fun g1 a1 e1 => ?_)
  · rw [hw_ite, if_pos (by simp), hw_bind]
    exact hw_emFree N N N N N N e1 fun h' e' => h0 h' e' n
  rw [hw_ite, if_neg (by simp), hw_bind]
  refine hw_malloc e1 (fun g2 e2 n => ?_) (fun g2 a2 e2 => ?_)
  · rw [hw_ite, if_pos (by simp), hw_bind]
    exact hw_emFree (S _ _) N N N N N e2 fun h' e' => h0 h' e' n
  rw [hw_ite, if_neg (by simp), hw_bind]
  refine hw_init e2 (fun g3 e3 n => ?_) (fun g3 a3 e3 => ?_)
  · simp only []
    rw [hw_ite, if_pos (by simp), hw_bind]
    exact hw_emFree (S a1 (.bytes [])) (S a2 (.bytes [])) N N N N (e3.perm (by blocks)) fun h' e' => h0 h' e' n
  simp only []
  rw [hw_ite, if_neg (by simp), hw_bind]
  unfold qInit
  rw [hw_bind]
  refine hw_malloc (o := Obj.events (List.replicate 16 none)) e3 (fun g4 e4 n => ?_) (fun g4 a4 e4 => ?_)
  · rw [hw_pure]
    simp only []
    rw [hw_ite, if_pos (by simp), hw_bind]
    exact hw_emFree (S a1 (.bytes [])) (S a2 (.bytes [])) (S a3 (stkObj ([] : List EState) 16)) N N N (e4.perm (by blocks)) fun h' e' => h0 h' e' n
  rw [hw_pure]
  simp only []
  rw [hw_ite, if_neg (by simp), hw_bind]
  refine hw_init e4 (fun g5 e5 n => ?_) (fun g5 a5 e5 => ?_)
  · simp only []
    rw [hw_ite, if_pos (by simp), hw_bind]
    exact hw_emFree (S a1 (.bytes [])) (S a2 (.bytes [])) (S a3 (stkObj ([] : List EState) 16)) (S a4 (Obj.events (List.replicate 16 none))) N N (e5.perm (by blocks)) fun h' e' => h0 h' e' n
  simp only []
  rw [hw_ite, if_neg (by simp), hw_bind]
  refine hw_init e5 (fun g6 e6 n => ?_) (fun g6 a6 e6 => ?_)
  · simp only []
    rw [hw_ite, if_pos (by simp), hw_bind]
    exact hw_emFree (S a1 (.bytes [])) (S a2 (.bytes [])) (S a3 (stkObj ([] : List EState) 16)) (S a4 (Obj.events (List.replicate 16 none))) (S a5 (stkObj ([] : List Int) 16)) N (e6.perm (by blocks)) fun h' e' => h0 h' e' n
  simp only []
  rw [hw_ite, if_neg (by simp), hw_pure]
  refine h1 g6 _ _ ⟨[], [], [(a3, stkObj ([] : List EState) 16)], [(a4, Obj.events (List.replicate 16 none))], [(a5, stkObj ([] : List Int) 16)],
    [(a6, stkObj ([] : List (Ptr × Ptr)) 16)], [(a1, .bytes [])], [(a2, .bytes [])], rfl, rfl, (fun x hx => by cases hx), (fun x hx => by cases hx),
    ⟨a3, 16, rfl, .inr (by decide), rfl⟩, ⟨a4, 0, 16, rfl, by decide, rfl⟩, ⟨a5, 16, rfl, .inr (by decide), rfl⟩,
    ⟨a6, 16, [], rfl, .inr (by decide), ⟨rfl, rfl⟩, rfl⟩, ⟨a1, rfl, rfl⟩, ⟨a2, rfl, rfl⟩, List.Perm.refl _⟩ rfl rfl (e6.perm ?_)
  unfold qBlocks
  simp only [List.flatMap_nil, List.nil_append]
  blocks

theorem hw_dropEvents {q : List QEv} {r : HQue} {x2 : Blocks} {n : Nat} {Q : Unit → Heap → Prop} (hq : QueAt (q.map fun x => x.2.1) r x2)
    (hok : ∀ x ∈ q, QOk x) (hn : n = q.length) (e : Ext A base bs h) (hp : bs.Perm (x2 ++ (qBlocks q ++ bs')))
    (hQ : ∀ a o, r.start = some a → ∀ h', Ext A base ((a, o) :: bs') h' → Q () h') : hw (hDropEvents n r) Q h := by
  induction q generalizing r x2 n bs h with
  | nil =>
    subst hn
    obtain ⟨a, i, n, rfl, _, rfl⟩ := hq
    exact hQ a _ rfl h (e.perm (by simpa [qBlocks] using hp))
  | cons x q ih =>
    rw [List.length_cons] at hn
    subst hn
    unfold hDropEvents
    rw [hw_bind]
    have hqb : qBlocks (x :: q) = x.2.2 ++ qBlocks q := by simp [qBlocks]
    rw [hqb] at hp
    have hst : ∀ r' : HQue, r'.start = r.start → ∀ a o, r'.start = some a → ∀ h', Ext A base ((a, o) :: bs') h' → Q () h' := by
      intro r' hr a o ha
      exact hQ a o (hr ▸ ha)
    obtain ⟨a, j, m, rfl, hne, rfl⟩ := hq
    unfold qPop
    rw [hw_bind]
    refine hw_qCells e (hp.mem_iff.mpr List.mem_cons_self) ?_
    have hg : (List.replicate j none ++ (((x :: q).map fun x => x.2.1).map some ++ List.replicate m none) : List (Option HEvent))[j]? = some (some x.2.1) := by
      rw [List.getElem?_append_right (by simp)]
      simp
    have hs : (List.replicate j none ++ (((x :: q).map fun x => x.2.1).map some ++ List.replicate m none) : List (Option HEvent)).set j none =
        List.replicate (j + 1) none ++ ((q.map fun x => x.2.1).map some ++ List.replicate m none) := by
      rw [List.set_append_right _ _ (by simp)]
      simp [List.replicate_succ']
    simp only [hg, hs]
    rw [hw_bind]
    refine hw_store e hp fun h' e' => ?_
    rw [hw_pure]
    simp only []
    rw [hw_bind]
    refine hw_dropEvent (ev := x.1) (b := x.2.2) (bs := (a, Cell.wrap (List.replicate (j + 1) none ++ ((q.map fun x => x.2.1).map some ++
        List.replicate m none))) :: (qBlocks q ++ bs')) (e'.perm ?_) (hok x List.mem_cons_self).1 fun h'' e'' => ?_
    · rw [List.append_assoc]
      show List.Perm (_ :: (x.2.2 ++ (qBlocks q ++ bs'))) _
      exact List.perm_middle.symm
    refine ih ⟨a, j + 1, m, ?_, ?_, rfl⟩ (fun y hy => hok y (List.mem_cons_of_mem _ hy)) rfl e'' (List.Perm.refl _) (hst _ rfl)
    · simp only [List.map_cons, List.length_cons]
      congr 1
      omega
    · simp only [List.map_cons, List.length_cons] at hne
      omega

theorem hw_emitterDelete {p : HEm ω} {s : Emitter} {b y : Blocks} {anchors : Ptr} {Q : Unit → Heap → Prop} (hp : EOwn p s b)
    (ha : (anchors = none ∧ y = []) ∨ ∃ a o, anchors = some a ∧ y = [(a, o)]) (e : Ext A base (b ++ (y ++ bs)) h)
    (hQ : ∀ h', Ext A base bs h' → Q () h') : hw (emitterDelete p anchors) Q h := by
  obtain ⟨q, T, x1, x2, x3, x4, x5, x6, k1, k2, k3, k4, k5, k6, k7, k8, k9, k10, hb⟩ := hp
  obtain ⟨a5, k9, rfl⟩ := k9
  obtain ⟨a6, k10, rfl⟩ := k10
  obtain ⟨a1, n1, k5, _, rfl⟩ := k5
  obtain ⟨a3, n3, k7, _, rfl⟩ := k7
  obtain ⟨a4, n4, vs, k8, _, k11, rfl⟩ := k8
  have hl := queAt_length k6
  rw [List.length_map] at hl
  unfold emitterDelete
  rw [k9, k10, k5, k7, k8, hl, hw_bind]
  refine hw_free (o := Obj.bytes []) (bs' := (a6, Obj.bytes []) :: (a1, stkObj s.states.reverse n1) :: (a3, stkObj s.indents.reverse n3) :: (a4, stkObj vs n4) ::
    (T ++ (y ++ (x2 ++ (qBlocks q ++ bs))))) e (by blocks_by hb) fun h1 e1 => ?_
  rw [hw_bind]
  refine hw_free e1 (List.Perm.refl _) fun h2 e2 => ?_
  rw [hw_bind]
  refine hw_free e2 (List.Perm.refl _) fun h3 e3 => ?_
  rw [hw_bind]
  refine hw_dropEvents (bs' := (a3, stkObj s.indents.reverse n3) :: (a4, stkObj vs n4) :: (T ++ (y ++ bs))) k6 k3 rfl e3 (by blocks) fun a o hs h4 e4 => ?_
  rw [hs, hw_bind]
  refine hw_free e4 (List.Perm.refl _) fun h5 e5 => ?_
  rw [hw_bind]
  refine hw_free e5 (List.Perm.refl _) fun h6 e6 => ?_
  rw [hw_bind]
  refine hw_dropTags (n := n4) (bs' := y ++ bs) k11 e6 (List.Perm.refl _) fun h7 n' _ e7 => ?_
  simp only []
  rw [hw_bind]
  refine hw_free e7 (List.Perm.refl _) fun h8 e8 => ?_
  rcases ha with ⟨rfl, rfl⟩ | ⟨a, o, rfl, rfl⟩
  · exact hw_free_null (hQ h8 e8)
  · exact hw_free e8 (List.Perm.refl _) hQ

end

end LibYaml
