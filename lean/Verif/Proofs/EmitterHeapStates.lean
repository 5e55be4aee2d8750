import Verif.Proofs.EmitterHeapNodes

/-!
# The emitter on the heap: the state machine
-/

namespace LibYaml

open Spec

variable {ω α α' β β' : Type}

/-! ### Kinds of events -/

def EvData.kind : EvData → Nat
  | .streamStart _ => 0
  | .streamEnd => 1
  | .documentStart .. => 2
  | .documentEnd _ => 3
  | .alias _ => 4
  | .scalar .. => 5
  | .sequenceStart .. => 6
  | .sequenceEnd => 7
  | .mappingStart .. => 8
  | .mappingEnd => 9

def HEvent.kind : HEvent → Nat
  | .streamStart _ => 0
  | .streamEnd => 1
  | .documentStart .. => 2
  | .documentEnd _ => 3
  | .alias _ => 4
  | .scalar .. => 5
  | .sequenceStart .. => 6
  | .sequenceEnd => 7
  | .mappingStart .. => 8
  | .mappingEnd => 9

theorem eventAt_kind {ev : EvData} {e : HEvent} {b : Blocks} (h : EventAt ev e b) : e.kind = ev.kind := by
  cases ev with
  | streamStart _ => obtain ⟨rfl, _⟩ := h; rfl
  | streamEnd => obtain ⟨rfl, _⟩ := h; rfl
  | documentStart _ _ _ => obtain ⟨_, _, _, _, rfl, _⟩ := h; rfl
  | documentEnd _ => obtain ⟨rfl, _⟩ := h; rfl
  | «alias» _ => obtain ⟨_, rfl, _⟩ := h; rfl
  | scalar _ _ _ _ _ _ => obtain ⟨_, _, _, _, _, _, rfl, _⟩ := h; rfl
  | sequenceStart _ _ _ _ => obtain ⟨_, _, _, _, rfl, _⟩ := h; rfl
  | sequenceEnd => obtain ⟨rfl, _⟩ := h; rfl
  | mappingStart _ _ _ _ => obtain ⟨_, _, _, _, rfl, _⟩ := h; rfl
  | mappingEnd => obtain ⟨rfl, _⟩ := h; rfl

theorem hev_sequenceEnd {e : HEvent} : e = .sequenceEnd ↔ e.kind = 7 := by cases e <;> simp [HEvent.kind]

theorem ev_sequenceEnd {e : EvData} : e = .sequenceEnd ↔ e.kind = 7 := by cases e <;> simp [EvData.kind]

theorem hev_mappingEnd {e : HEvent} : e = .mappingEnd ↔ e.kind = 9 := by cases e <;> simp [HEvent.kind]

theorem ev_mappingEnd {e : EvData} : e = .mappingEnd ↔ e.kind = 9 := by cases e <;> simp [EvData.kind]

theorem opensSequence_kind (a b : HEvent) : opensSequence a b = (a.kind == 6 && b.kind == 7) := by
  cases a <;> first | rfl | (cases b <;> rfl)

theorem opensMapping_kind (a b : HEvent) : opensMapping a b = (a.kind == 8 && b.kind == 9) := by
  cases a <;> first | rfl | (cases b <;> rfl)

theorem emptySequence_kind {s : Emitter} {a b : EvData} {r : List EvData} (h : s.events = a :: b :: r) : s.emptySequence = (a.kind == 6 && b.kind == 7) := by
  unfold Emitter.emptySequence
  rw [h]
  cases a <;> first | rfl | (cases b <;> rfl)

theorem emptyMapping_kind {s : Emitter} {a b : EvData} {r : List EvData} (h : s.events = a :: b :: r) : s.emptyMapping = (a.kind == 8 && b.kind == 9) := by
  unfold Emitter.emptyMapping
  rw [h]
  cases a <;> first | rfl | (cases b <;> rfl)

/-! ### Checks -/

section
variable {A : Prop} {base : Nat → Option Obj} {h : Heap} {q : List QEv} {T b fr : Blocks} {p : HEm ω} {s : Emitter}

theorem eat_queue (hp : EAt q T p s b) : ∃ x2, QueAt (q.map fun x => x.2.1) p.events x2 ∧ ∀ z ∈ x2, z ∈ b := by
  obtain ⟨x1, x2, x3, x4, x5, x6, k1, k2, k3, k4, k5, k6, k7, k8, k9, k10, hb⟩ := hp
  refine ⟨x2, k6, fun z hz => hb.mem_iff.mpr ?_⟩
  simp [hz]

theorem eat_events (hp : EAt q T p s b) : s.events = q.map Prod.fst := by
  obtain ⟨x1, x2, x3, x4, x5, x6, k1, k2, _⟩ := hp
  exact k2

theorem eat_all (hp : EAt q T p s b) : ∀ x ∈ q, QOk x := by
  obtain ⟨x1, x2, x3, x4, x5, x6, k1, k2, k3, _⟩ := hp
  exact k3

theorem queAt_length {es : List HEvent} {r : HQue} {x : Blocks} (h : QueAt es r x) : r.tail - r.head = es.length := by
  obtain ⟨a, i, n, rfl, _, _⟩ := h
  simp

theorem hw_lift {m : HM α} {Q : Except EErr α × HEm ω → Heap → Prop} (hm : hw m (fun a h' => Q (.ok a, p) h') h) : hw (eLift m p) Q h := by
  unfold eLift hw at *
  cases hx : m h with
  | error e => simp only [hx] at hm
  | ok y => simp only [hx] at hm ⊢; exact hm

theorem hw_emptyColl {test : HEvent → HEvent → Bool} {k1 k2 : Nat} {f : Emitter → Bool} (ht : ∀ a b, test a b = (a.kind == k1 && b.kind == k2))
    (hf : ∀ s a b r, s.events = a :: b :: r → f s = (EvData.kind a == k1 && EvData.kind b == k2)) (hf0 : ∀ s, s.events.length < 2 → f s = false)
    {Q : Except EErr Bool × HEm ω → Heap → Prop} (hp : EAt q T p s b) (e : Ext A base (b ++ fr) h) (hQ : Q (.ok (f s), p) h) :
    hw (eEmptyColl test p) Q h := by
  obtain ⟨x2, j1, j2⟩ := eat_queue hp
  have j3 := eat_events hp
  have j4 := eat_all hp
  unfold eEmptyColl
  rw [hw_he_bind]
  show hw ((if p.events.tail - p.events.head < 2 then (pure false : HE ω Bool) else _) p) Q h
  rw [queAt_length j1]
  match q, j1, j3, j4 with
  | [], j1, j3, j4 => rw [hf0 s (by simp [j3])] at hQ; exact hQ
  | [x], j1, j3, j4 => rw [hf0 s (by simp [j3])] at hQ; exact hQ
  | x :: y :: r, j1, j3, j4 =>
    have hl : ¬ ((x :: y :: r).map fun x => x.2.1).length < 2 := by simp
    rw [if_neg hl, hw_he_bind]
    refine hw_lift (hw_qAt (i := 0) (v := x.2.1) j1 e (fun z hz => List.mem_append_left _ (j2 z hz)) rfl ?_)
    show hw ((eLift (qAt p.events 1) >>= fun b => pure (test x.2.1 b)) p) Q h
    rw [hw_he_bind]
    refine hw_lift (hw_qAt (i := 1) (v := y.2.1) j1 e (fun z hz => List.mem_append_left _ (j2 z hz)) rfl ?_)
    show Q (.ok (test x.2.1 y.2.1), p) h
    rw [hf s x.1 y.1 (r.map Prod.fst) j3] at hQ
    rw [ht, eventAt_kind (j4 x (by simp)).1, eventAt_kind (j4 y (by simp)).1]
    exact hQ

theorem emptySequence_short {s : Emitter} (h : s.events.length < 2) : s.emptySequence = false := by
  unfold Emitter.emptySequence
  split
  · rename_i k; rw [k] at h; simp only [List.length_cons] at h; omega
  · rfl

theorem emptyMapping_short {s : Emitter} (h : s.events.length < 2) : s.emptyMapping = false := by
  unfold Emitter.emptyMapping
  split
  · rename_i k; rw [k] at h; simp only [List.length_cons] at h; omega
  · rfl

theorem hw_emptySequence {Q : Except EErr Bool × HEm ω → Heap → Prop} (hp : EAt q T p s b) (e : Ext A base (b ++ fr) h)
    (hQ : Q (.ok s.emptySequence, p) h) : hw (eEmptyColl opensSequence p) Q h :=
  hw_emptyColl opensSequence_kind (fun _ _ _ _ h => emptySequence_kind h) (fun _ h => emptySequence_short h) hp e hQ

theorem hw_emptyMapping {Q : Except EErr Bool × HEm ω → Heap → Prop} (hp : EAt q T p s b) (e : Ext A base (b ++ fr) h)
    (hQ : Q (.ok s.emptyMapping, p) h) : hw (eEmptyColl opensMapping p) Q h :=
  hw_emptyColl opensMapping_kind (fun _ _ _ _ h => emptyMapping_kind h) (fun _ h => emptyMapping_short h) hp e hQ

theorem hw_simpleKey {x : QEv} {Q : Except EErr Bool × HEm ω → Heap → Prop} (hp : EAt (x :: q) T p s b) (e : Ext A base (b ++ fr) h)
    (hQ : Q (.ok s.simpleKey, p) h) : hw (eSimpleKey p) Q h := by
  obtain ⟨x2, j1, j2⟩ := eat_queue hp
  have j3 := eat_events hp
  have j4 := eat_ok hp
  have j5 : s = p.val.hold s.held := (show EHas (x :: q) T (fun _ => True) p s b from ⟨hp, trivial⟩).val
  have j6 : optLen s.anchor = optLen p.val.anchor := by rw [j5]; rfl
  have j7 : optLen s.tagHandle = optLen p.val.tagHandle := by rw [j5]; rfl
  have j9 : optLen s.tagSuffix = optLen p.val.tagSuffix := by rw [j5]; rfl
  have j8 : s.scalar = p.val.scalar := by rw [j5]; rfl
  unfold eSimpleKey
  rw [hw_he_bind]
  show hw ((eLift (qAt p.events 0) >>= _) p) Q h
  rw [hw_he_bind]
  refine hw_lift (hw_qAt (i := 0) (v := x.2.1) j1 e (fun z hz => List.mem_append_left _ (j2 z hz)) rfl ?_)
  unfold Emitter.simpleKey at hQ
  simp only [j3, List.map_cons, j6, j7, j8, j9] at hQ
  obtain ⟨ev, he, be⟩ := x
  obtain ⟨hat, _⟩ := j4
  cases ev with
  | streamStart _ => obtain ⟨rfl, _⟩ := hat; exact hQ
  | streamEnd => obtain ⟨rfl, _⟩ := hat; exact hQ
  | documentStart _ _ _ => obtain ⟨_, _, _, _, rfl, _⟩ := hat; exact hQ
  | documentEnd _ => obtain ⟨rfl, _⟩ := hat; exact hQ
  | «alias» _ => obtain ⟨_, rfl, _⟩ := hat; exact hQ
  | scalar _ _ _ _ _ _ => obtain ⟨_, _, _, _, _, _, rfl, _⟩ := hat; exact hQ
  | sequenceStart _ _ _ _ =>
    obtain ⟨_, _, _, _, rfl, _⟩ := hat
    show hw ((eEmptyColl opensSequence >>= fun b => pure (b && decide (p.val.propsLen ≤ 128))) p) Q h
    rw [hw_he_bind]
    exact hw_emptySequence hp e hQ
  | sequenceEnd => obtain ⟨rfl, _⟩ := hat; exact hQ
  | mappingStart _ _ _ _ =>
    obtain ⟨_, _, _, _, rfl, _⟩ := hat
    show hw ((eEmptyColl opensMapping >>= fun b => pure (b && decide (p.val.propsLen ≤ 128))) p) Q h
    rw [hw_he_bind]
    exact hw_emptyMapping hp e hQ
  | mappingEnd => obtain ⟨rfl, _⟩ := hat; exact hQ

end

/-! ### Output of the texts -/

section
variable {W : OutH ω} {A : Prop} {base : Nat → Option Obj} {x : QEv} {q : List QEv} {T : Blocks} {sc : Prop} {I : HEm ω → Prop}

theorem hw_touch {bs : Blocks} {h : Heap} {r : TextRef} {Q : Unit → Heap → Prop} (e : Ext A base bs h) (hr : r = .lit ∨ ∃ a o, r = .heap a ∧ (a, Obj.bytes o) ∈ bs)
    (hQ : Q () h) : hw (hTouch r) Q h := by
  rcases hr with rfl | ⟨a, o, rfl, hm⟩
  · exact hQ
  · unfold hTouch
    rw [hw_bind]
    exact hw_load e hm hQ

theorem hw_touchSome {B bs : Blocks} {h : Heap} {t : Option Text} {r : TextRef} {Q : Unit → Heap → Prop} (e : Ext A base bs h) (hr : LiveRef B t r)
    (hB : ∀ z ∈ B, z ∈ bs) (hQ : Q () h) : hw (hTouchSome t r) Q h := by
  cases t with
  | none => exact hQ
  | some t =>
    refine hw_touch e ?_ hQ
    rcases hr with h | h | ⟨a, o, h, hm⟩
    · cases h
    · exact .inl h
    · exact .inr ⟨a, o, h, hB _ hm⟩

theorem erel_fields {k' : HEm ω → HE ω β'} {k : Emitter → EM β} {Q : β' → β → HEm ω → Emitter → Blocks → Prop}
    (h : ∀ (p : HEm ω) (y : Held), ERel W A base (EHas q T I) (k' p) (k (p.val.hold y)) Q) : ERel W A base (EHas q T I) (eGet >>= k') (getE >>= k) Q := by
  refine erel_get fun p s b hp => ?_
  rw [hp.val]
  exact erel_pre (h p s.held) fun _ _ _ hh => hh.1

theorem erel_hfields {k' : HEm ω → HE ω β'} {v : EM β} {Q : β' → β → HEm ω → Emitter → Blocks → Prop}
    (h : ∀ p : HEm ω, ERel W A base (fun p' s' b' => EHas q T I p' s' b' ∧ p' = p) (k' p) v Q) : ERel W A base (EHas q T I) (eGet >>= k') v Q := by
  refine erel_hget fun p s b hp => ?_
  exact erel_pre (h p) fun _ _ _ hh => ⟨hh.1, hh.2.1⟩

theorem erel_pAnchor : ERel W A base (EHas (x :: q) T (Texts x T sc)) (eProcessAnchor W) processAnchor (fun _ _ => EHas (x :: q) T (Texts x T sc)) := by
  unfold eProcessAnchor
  refine erel_hfields fun p => ?_
  refine erel_lift fun p' s b fr h hp e hu => ?_
  obtain ⟨hp, rfl⟩ := hp
  refine hw_touchSome e hp.2.anchor (fun z hz => List.mem_append_left _ (eat_mem hp.1 z hz)) ⟨rfl, ?_⟩
  exact erel_pre (erel_calm frames_processAnchor quiet_processAnchor.steady) fun _ _ _ hh => hh.1

theorem erel_pTag : ERel W A base (EHas (x :: q) T (Texts x T sc)) (eProcessTag W) processTag (fun _ _ => EHas (x :: q) T (Texts x T sc)) := by
  unfold eProcessTag
  refine erel_hfields fun p => ?_
  refine erel_lift fun p' s b fr h hp e hu => ?_
  obtain ⟨hp, rfl⟩ := hp
  refine hw_touchSome e hp.2.handle (fun z hz => List.mem_append_left _ (eat_mem hp.1 z hz)) ⟨rfl, ?_⟩
  refine erel_lift fun p2 s2 b2 fr2 h2 hp2 e2 hu2 => ?_
  obtain ⟨hp2, rfl⟩ := hp2
  refine hw_touchSome e2 hp2.2.suffix (fun z hz => List.mem_append_left _ (eat_mem hp2.1 z hz)) ⟨rfl, ?_⟩
  exact erel_pre (erel_calm frames_processTag quiet_processTag.steady) fun _ _ _ hh => hh.1

theorem steady_processScalar : Steady processScalar := by
  refine steady_bind steady_get fun s => ?_
  cases s.scalar.style with
  | any => exact fun _ => ⟨rfl, rfl, rfl⟩
  | plain => exact (quiet_writePlain _ _).steady
  | single => exact (quiet_writeSingle _ _).steady
  | double => exact (quiet_writeDouble _ _).steady
  | literal => exact (quiet_writeLiteral _).steady
  | folded => exact (quiet_writeFolded _).steady

theorem erel_pScalar (hs : sc) : ERel W A base (EHas (x :: q) T (Texts x T sc)) (eProcessScalar W) processScalar (fun _ _ => EHas (x :: q) T (Texts x T sc)) := by
  unfold eProcessScalar
  refine erel_hfields fun p => ?_
  refine erel_lift fun p' s b fr h hp e hu => ?_
  obtain ⟨hp, rfl⟩ := hp
  obtain ⟨a, o, j1, j2⟩ := hp.2.value hs
  refine hw_touch e (.inr ⟨a, o, j1, List.mem_append_left _ (eat_mem hp.1 _ j2)⟩) ⟨rfl, ?_⟩
  exact erel_pre (erel_calm frames_processScalar steady_processScalar) fun _ _ _ hh => hh.1

theorem erel_selectStyle {a b : Bool} {st : ScalarStyle} :
    ERel W A base (EHas (x :: q) T (Texts x T sc)) (eSelectStyle W a b st) (selectScalarStyle a b st) (fun _ _ => EHas (x :: q) T (Texts x T sc)) := by
  unfold eSelectStyle
  refine erel_hfields fun p0 => ?_
  refine erel_pre (P := EHas (x :: q) T fun p => Texts x T sc p ∧ p = p0) ?_ fun _ _ _ hh => ⟨hh.1.1, hh.1.2, hh.2⟩
  refine erel_thenMod (R := fun _ _ => EHas (x :: q) T fun p => LiveRef (x.2.2 ++ T) p.val.anchor p.anchor ∧ LiveRef (x.2.2 ++ T) p.val.tagSuffix p.suffix ∧
      (sc → ∃ a o, p.value = .heap a ∧ (a, Obj.bytes o) ∈ x.2.2 ++ T) ∧ (p0.val.tagHandle.isNone = false → LiveRef (x.2.2 ++ T) p.val.tagHandle p.handle))
    (erel_post (erel_run (I' := fun _ p => LiveRef (x.2.2 ++ T) p.val.anchor p.anchor ∧ LiveRef (x.2.2 ++ T) p.val.tagSuffix p.suffix ∧
      (sc → ∃ a o, p.value = .heap a ∧ (a, Obj.bytes o) ∈ x.2.2 ++ T) ∧ (p0.val.tagHandle.isNone = false → LiveRef (x.2.2 ++ T) p.val.tagHandle p.handle))
      (frames_selectScalarStyle a b st) ?_) fun _ _ _ _ _ hh => hh.2) ?_ ?_
  · rintro p u w ⟨hI, rfl⟩ hv
    unfold selectScalarStyle at hv ⊢
    rw [em_bind] at hv ⊢
    simp only [getE] at hv ⊢
    by_cases hc : (p.val.tagHandle.isNone && p.val.tagSuffix.isNone && !a && !b) = true
    · simp only [hc, if_true] at hv
      cases hv
    · rw [if_neg hc]
      refine ⟨hI.anchor, hI.suffix, hI.value, fun hn => ?_⟩
      have := hI.handle
      simp only [modE, hn, Bool.false_and, Bool.false_eq_true, if_false]
      exact this
  · intro p
    split <;> rfl
  · rintro u p s b ⟨h1, h2, h3, h4, h5⟩
    split
    · rename_i hc
      exact ⟨h1, ⟨h2, .inr (.inl rfl), h3, h4⟩⟩
    · rename_i hc
      refine ⟨h1, ⟨h2, ?_, h3, h4⟩⟩
      cases hn : p0.val.tagHandle.isNone with
      | false => exact h5 hn
      | true =>
        rw [hn, Bool.true_and] at hc
        cases ht : p.val.tagHandle with
        | none => exact .inl rfl
        | some t => rw [ht] at hc; exact absurd rfl hc

/-! ### Nodes -/

/-- The current event is analyzed. -/
abbrev Cur (x : QEv) (q : List QEv) (T : Blocks) : HEm ω → Emitter → Blocks → Prop := EHas (x :: q) T (Texts x T x.1.isScalar)

theorem erel_done {m : HE ω Unit} {v : EM Unit} (h : ERel W A base (Cur x q T) m v (fun _ _ => Cur x q T)) :
    ERel W A base (Cur x q T) m v (fun _ _ => EQue (x :: q)) :=
  erel_post h fun _ _ _ _ _ hh => ⟨T, hh.1, trivial⟩

theorem erel_alias : ERel W A base (Cur x q T) (eAlias W) emitAlias (fun _ _ => Cur x q T) := by
  unfold eAlias emitAlias
  refine erel_bind erel_pAnchor fun _ _ => ?_
  refine erel_fields fun p y => ?_
  refine erel_bind (R := fun _ _ => Cur x q T) (erel_when (erel_calm (frames_putC _) (quiet_putC _).steady) fun _ _ _ hh => hh) fun _ _ => ?_
  exact erel_pop

theorem erel_scalar {a b : Bool} {st : ScalarStyle} (hs : x.1.isScalar) :
    ERel W A base (Cur x q T) (eScalar W a b st) (emitScalar a b st) (fun _ _ => Cur x q T) := by
  unfold eScalar emitScalar
  refine erel_bind erel_selectStyle fun _ _ => ?_
  refine erel_bind erel_pAnchor fun _ _ => ?_
  refine erel_bind erel_pTag fun _ _ => ?_
  refine erel_bind erel_increase fun _ _ => ?_
  refine erel_bind (erel_pScalar hs) fun _ _ => ?_
  exact erel_bind erel_popIndent fun _ _ => erel_pop

theorem erel_sequenceStart {st : CollStyle} : ERel W A base (Cur x q T) (eSequenceStart W st) (emitSequenceStart st) (fun _ _ => Cur x q T) := by
  unfold eSequenceStart emitSequenceStart
  refine erel_bind erel_pAnchor fun _ _ => ?_
  refine erel_bind erel_pTag fun _ _ => ?_
  refine erel_get fun p s b hp => ?_
  refine erel_ask (f := fun s => s.emptySequence) (fun p' s' b' fr h hp' e => hw_emptySequence hp'.1.1 e ⟨rfl, rfl⟩) fun p' s' b' hp' => ?_
  obtain ⟨hp', rfl, rfl⟩ := hp'
  have h1 : s'.flowLevel = p'.val.flowLevel := by rw [hp.val]; rfl
  have h2 : s'.canonical = p'.val.canonical := by rw [hp.val]; rfl
  rw [h1, h2]
  exact erel_pre erel_set fun _ _ _ hh => hh.1.1

theorem erel_mappingStart {st : CollStyle} : ERel W A base (Cur x q T) (eMappingStart W st) (emitMappingStart st) (fun _ _ => Cur x q T) := by
  unfold eMappingStart emitMappingStart
  refine erel_bind erel_pAnchor fun _ _ => ?_
  refine erel_bind erel_pTag fun _ _ => ?_
  refine erel_get fun p s b hp => ?_
  refine erel_ask (f := fun s => s.emptyMapping) (fun p' s' b' fr h hp' e => hw_emptyMapping hp'.1.1 e ⟨rfl, rfl⟩) fun p' s' b' hp' => ?_
  obtain ⟨hp', rfl, rfl⟩ := hp'
  have h1 : s'.flowLevel = p'.val.flowLevel := by rw [hp.val]; rfl
  have h2 : s'.canonical = p'.val.canonical := by rw [hp.val]; rfl
  rw [h1, h2]
  exact erel_pre erel_set fun _ _ _ hh => hh.1.1

/-- The head of the queue is a readable event. -/
theorem erel_head {m : HE ω α'} {v : EM α} {Q : α' → α → HEm ω → Emitter → Blocks → Prop} (h : QOk x → ERel W A base (EHas (x :: q) T I) m v Q) :
    ERel W A base (EHas (x :: q) T I) m v Q :=
  fun p s b fr h' hp e hu => h (eat_ok hp.1) p s b fr h' hp e hu

theorem erel_node {r c m k : Bool} : ERel W A base (Cur x q T) (eNode W x.2.1 r c m k) (emitNode x.1 r c m k) (fun _ _ => Cur x q T) := by
  refine erel_head fun hx => ?_
  unfold eNode emitNode
  refine erel_bind (R := fun _ _ => Cur x q T) ?_ fun _ _ => ?_
  · exact erel_mod (g' := fun s => { s with rootContext := r, sequenceContext := c, mappingContext := m, simpleKeyContext := k })
      (fun p => ⟨p.anchor, p.handle, p.suffix, p.value, rfl⟩) (fun _ _ => rfl) (fun p hI => Loose.keep p _ rfl rfl rfl rfl rfl rfl rfl hI)
  obtain ⟨ev, he, be⟩ := x
  obtain ⟨hat, _⟩ := hx
  cases ev with
  | streamStart _ => obtain ⟨rfl, _⟩ := hat; exact erel_fail fun _ _ _ hh => hh.own
  | streamEnd => obtain ⟨rfl, _⟩ := hat; exact erel_fail fun _ _ _ hh => hh.own
  | documentStart _ _ _ => obtain ⟨_, _, _, _, rfl, _⟩ := hat; exact erel_fail fun _ _ _ hh => hh.own
  | documentEnd _ => obtain ⟨rfl, _⟩ := hat; exact erel_fail fun _ _ _ hh => hh.own
  | «alias» _ => obtain ⟨_, rfl, _⟩ := hat; exact erel_alias
  | scalar _ _ _ _ _ _ => obtain ⟨_, _, _, _, _, _, rfl, _⟩ := hat; exact erel_scalar trivial
  | sequenceStart _ _ _ _ => obtain ⟨_, _, _, _, rfl, _⟩ := hat; exact erel_sequenceStart
  | sequenceEnd => obtain ⟨rfl, _⟩ := hat; exact erel_fail fun _ _ _ hh => hh.own
  | mappingStart _ _ _ _ => obtain ⟨_, _, _, _, rfl, _⟩ := hat; exact erel_mappingStart
  | mappingEnd => obtain ⟨rfl, _⟩ := hat; exact erel_fail fun _ _ _ hh => hh.own

/-! ### Collections -/

theorem steady_mod {f : Emitter → Emitter} (h : ∀ s, (f s).anchor = s.anchor ∧ (f s).tagHandle = s.tagHandle ∧ (f s).tagSuffix = s.tagSuffix) :
    Steady (modE f) := h

theorem erel_indicator [Loose I] {t : Text} {a b c : Bool} :
    ERel W A base (EHas q T I) (eRun W (writeIndicator t a b c)) (writeIndicator t a b c) (fun _ _ => EHas q T I) :=
  erel_calm (frames_writeIndicator t a b c) (quiet_writeIndicator t a b c).steady

theorem erel_indent [Loose I] : ERel W A base (EHas q T I) (eRun W writeIndent) writeIndent (fun _ _ => EHas q T I) :=
  erel_calm frames_writeIndent quiet_writeIndent.steady

theorem erel_openFlow [Loose I] {c : Nat} : ERel W A base (EHas q T I) (eOpenFlow W c) (openFlow c) (fun _ _ => EHas q T I) := by
  unfold eOpenFlow openFlow
  refine erel_bind erel_indicator fun _ _ => ?_
  refine erel_bind erel_increase fun _ _ => ?_
  exact erel_calm (Frames.mod fun _ _ => rfl) (steady_mod fun _ => ⟨rfl, rfl, rfl⟩)

theorem erel_closeFlow [Loose I] {c : Nat} {first : Bool} : ERel W A base (EHas q T I) (eCloseFlow W c first) (closeFlow c first) (fun _ _ => EHas q T I) := by
  unfold eCloseFlow closeFlow
  refine erel_calmB (Frames.mod fun _ _ => rfl) (steady_mod fun _ => ⟨rfl, rfl, rfl⟩) ?_
  refine erel_bind erel_popIndent fun _ _ => ?_
  refine erel_fields fun p y => ?_
  refine erel_bind (R := fun _ _ => EHas q T I) (erel_when (erel_calm ((frames_writeIndicator _ _ _ _).bind fun _ => frames_writeIndent)
    (steady_bind (quiet_writeIndicator _ _ _ _).steady fun _ => quiet_writeIndent.steady)) fun _ _ _ hh => hh) fun _ _ => ?_
  exact erel_bind erel_indicator fun _ _ => erel_pop

theorem erel_flowSequence {first : Bool} :
    ERel W A base (Cur x q T) (eFlowSequenceItem W x.2.1 first) (emitFlowSequenceItem x.1 first) (fun _ _ => Cur x q T) := by
  refine erel_head fun hx => ?_
  unfold eFlowSequenceItem emitFlowSequenceItem
  refine erel_bind (R := fun _ _ => Cur x q T) (erel_when erel_openFlow fun _ _ _ hh => hh) fun _ _ => ?_
  refine erel_ite (by rw [hev_sequenceEnd, ev_sequenceEnd, eventAt_kind hx.1]) (fun _ => erel_closeFlow) fun _ => ?_
  refine erel_bind (R := fun _ _ => Cur x q T) (erel_when erel_indicator fun _ _ _ hh => hh) fun _ _ => ?_
  refine erel_fields fun p y => ?_
  refine erel_bind (R := fun _ _ => Cur x q T) (erel_when erel_indent fun _ _ _ hh => hh) fun _ _ => ?_
  exact erel_bind erel_push fun _ _ => erel_node

theorem erel_flowKey {simple : Bool} : ERel W A base (Cur x q T) (eFlowKey W x.2.1 simple) (if simple then (do
      pushStateE .flowMappingSimpleValue
      emitNode x.1 false false true true)
    else (do
      writeIndicator [c! '?'] true false false
      pushStateE .flowMappingValue
      emitNode x.1 false false true false)) (fun _ _ => Cur x q T) := by
  unfold eFlowKey
  refine erel_ite Iff.rfl (fun _ => erel_bind erel_push fun _ _ => erel_node) fun _ => ?_
  exact erel_bind erel_indicator fun _ _ => erel_bind erel_push fun _ _ => erel_node

theorem erel_flowMappingKey {first : Bool} :
    ERel W A base (Cur x q T) (eFlowMappingKey W x.2.1 first) (emitFlowMappingKey x.1 first) (fun _ _ => Cur x q T) := by
  refine erel_head fun hx => ?_
  unfold eFlowMappingKey emitFlowMappingKey
  refine erel_bind (R := fun _ _ => Cur x q T) (erel_when erel_openFlow fun _ _ _ hh => hh) fun _ _ => ?_
  refine erel_ite (by rw [hev_mappingEnd, ev_mappingEnd, eventAt_kind hx.1]) (fun _ => erel_closeFlow) fun _ => ?_
  refine erel_bind (R := fun _ _ => Cur x q T) (erel_when erel_indicator fun _ _ _ hh => hh) fun _ _ => ?_
  refine erel_fields fun p y => ?_
  refine erel_bind (R := fun _ _ => Cur x q T) (erel_when erel_indent fun _ _ _ hh => hh) fun _ _ => ?_
  refine erel_get fun p s b hp => ?_
  refine erel_vget fun p' s' b' hp' => ?_
  obtain ⟨_, rfl, rfl⟩ := hp'
  have hc : s'.canonical = p'.val.canonical := by rw [hp.val]; rfl
  rw [hc]
  cases hb : p'.val.canonical with
  | true =>
    rw [if_pos rfl]
    exact erel_pre (erel_flowKey (simple := false)) fun _ _ _ hh => hh.1.1
  | false =>
    rw [if_neg (by simp), Bool.not_false, Bool.true_and]
    refine erel_ask (f := fun s => s.simpleKey) (fun p1 s1 b1 fr h hp1 e => hw_simpleKey hp1.1.1.1 e ⟨rfl, rfl⟩) fun p1 s1 b1 hp1 => ?_
    obtain ⟨_, rfl, rfl⟩ := hp1
    exact erel_pre erel_flowKey fun _ _ _ hh => hh.1.1.1

theorem erel_flowValue {simple : Bool} :
    ERel W A base (Cur x q T) (eFlowMappingValue W x.2.1 simple) (emitFlowMappingValue x.1 simple) (fun _ _ => Cur x q T) := by
  unfold eFlowMappingValue emitFlowMappingValue
  refine erel_calmB (Frames.ite (frames_writeIndicator _ _ _ _) (Frames.get (fun _ _ => rfl) fun _ =>
    (Frames.when frames_writeIndent).bind fun _ => frames_writeIndicator _ _ _ _))
    (steady_ite (quiet_writeIndicator _ _ _ _).steady (steady_bind steady_get fun _ =>
      steady_bind (steady_when quiet_writeIndent.steady) fun _ => (quiet_writeIndicator _ _ _ _).steady)) ?_
  exact erel_bind erel_push fun _ _ => erel_node

theorem erel_blockSequence {first : Bool} :
    ERel W A base (Cur x q T) (eBlockSequenceItem W x.2.1 first) (emitBlockSequenceItem x.1 first) (fun _ _ => Cur x q T) := by
  refine erel_head fun hx => ?_
  unfold eBlockSequenceItem emitBlockSequenceItem
  refine erel_bind (R := fun _ _ => Cur x q T) (erel_when ?_ fun _ _ _ hh => hh) fun _ _ => ?_
  · refine erel_get fun p s b hp => ?_
    refine erel_vget fun p' s' b' hp' => ?_
    obtain ⟨_, rfl, rfl⟩ := hp'
    have h1 : s'.mappingContext = p'.val.mappingContext := by rw [hp.val]; rfl
    have h2 : s'.indention = p'.val.indention := by rw [hp.val]; rfl
    rw [h1, h2]
    exact erel_pre erel_increase fun _ _ _ hh => hh.1.1
  refine erel_ite (by rw [hev_sequenceEnd, ev_sequenceEnd, eventAt_kind hx.1]) (fun _ => erel_bind erel_popIndent fun _ _ => erel_pop) fun _ => ?_
  refine erel_bind erel_indent fun _ _ => ?_
  refine erel_bind erel_indicator fun _ _ => ?_
  exact erel_bind erel_push fun _ _ => erel_node

theorem erel_blockKey {simple : Bool} : ERel W A base (Cur x q T) (eBlockKey W x.2.1 simple) (if simple then (do
      pushStateE .blockMappingSimpleValue
      emitNode x.1 false false true true)
    else (do
      writeIndicator [c! '?'] true false true
      pushStateE .blockMappingValue
      emitNode x.1 false false true false)) (fun _ _ => Cur x q T) := by
  unfold eBlockKey
  refine erel_ite Iff.rfl (fun _ => erel_bind erel_push fun _ _ => erel_node) fun _ => ?_
  exact erel_bind erel_indicator fun _ _ => erel_bind erel_push fun _ _ => erel_node

theorem erel_blockMappingKey {first : Bool} :
    ERel W A base (Cur x q T) (eBlockMappingKey W x.2.1 first) (emitBlockMappingKey x.1 first) (fun _ _ => Cur x q T) := by
  refine erel_head fun hx => ?_
  unfold eBlockMappingKey emitBlockMappingKey
  refine erel_bind (R := fun _ _ => Cur x q T) (erel_when erel_increase fun _ _ _ hh => hh) fun _ _ => ?_
  refine erel_ite (by rw [hev_mappingEnd, ev_mappingEnd, eventAt_kind hx.1]) (fun _ => erel_bind erel_popIndent fun _ _ => erel_pop) fun _ => ?_
  refine erel_bind erel_indent fun _ _ => ?_
  refine erel_vget fun p s b hp => ?_
  refine erel_ask (f := fun s => s.simpleKey) (fun p1 s1 b1 fr h hp1 e => hw_simpleKey hp1.1.1 e ⟨rfl, rfl⟩) fun p1 s1 b1 hp1 => ?_
  obtain ⟨_, rfl, rfl⟩ := hp1
  exact erel_pre erel_blockKey fun _ _ _ hh => hh.1.1

theorem erel_blockValue {simple : Bool} :
    ERel W A base (Cur x q T) (eBlockMappingValue W x.2.1 simple) (emitBlockMappingValue x.1 simple) (fun _ _ => Cur x q T) := by
  unfold eBlockMappingValue emitBlockMappingValue
  refine erel_calmB (Frames.ite (frames_writeIndicator _ _ _ _) (frames_writeIndent.bind fun _ => frames_writeIndicator _ _ _ _))
    (steady_ite (quiet_writeIndicator _ _ _ _).steady (steady_bind quiet_writeIndent.steady fun _ => (quiet_writeIndicator _ _ _ _).steady)) ?_
  exact erel_bind erel_push fun _ _ => erel_node

end

end LibYaml
