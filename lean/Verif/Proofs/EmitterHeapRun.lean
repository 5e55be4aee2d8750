import Verif.Proofs.EmitterHeapCalls
import Verif.Proofs.EmitterQueue
import Verif.Props.EventApi

/-!
# Calls of the emitter on the heap: helper lemmas
-/

namespace LibYaml

open Spec

variable {ω : Type}

/-- The call may be followed by others: it succeeded, or the emitter refused the events. -/
def EErr.goesOn : Except EErr Unit → Bool
  | .error .writer => false
  | .error .memory => false
  | _ => true

/-- Outcome of one call: either as on values, or the output handler or the memory fails. -/
def Called (W : OutH ω) (A : Prop) (ev : EvData) (s : Emitter) (w : ω) (r : Except EErr Unit) (s' : Emitter) (w' : ω) : Prop :=
  match r with
  | .ok () => (emit ev s).val = .ok () ∧ (emit ev s).st = s' ∧ execOps (outEnv W) (emit ev s).ops w = (none, w')
  | .error e => Missed W A w (emit ev s) s' w' e

theorem Called.sound {W : OutH ω} {A : Prop} {ev : EvData} {s s' : Emitter} {w w' : ω} {r : Except EErr Unit} (h : Called W A ev s w r s' w')
    (hs : Sound s) (hr : EErr.goesOn r = true) : Sound s' := by
  have := sound_emit ev hs
  unfold ewp at this
  cases r with
  | ok u =>
    obtain ⟨h1, h2, _⟩ := h
    rw [h1, h2] at this
    exact this
  | error e =>
    cases e with
    | writer => cases hr
    | memory => cases hr
    | emitter x =>
      obtain ⟨h1, h2, _⟩ := h
      rw [h1, h2] at this
      exact this.2

theorem sound_defined {ev : EvData} {s : Emitter} (h : Sound s) : (emit ev s).val ≠ .error .ub := by
  have := sound_emit ev h
  unfold ewp at this
  intro hx
  rw [hx] at this
  obtain ⟨⟨p, hp⟩, _⟩ := this
  cases hp

section
variable {W : OutH ω} {A : Prop} {base : Nat → Option Obj} {bs : Blocks} {h : Heap}

theorem hw_emit {ev : EvData} {e : HEvent} {p : HEm ω} {s : Emitter} {b be : Blocks} (hs : Sound s) (hp : EOwn p s b) (he : EventAt ev e be) (hl : Legible ev)
    (hx : Ext A base (be ++ (b ++ bs)) h) :
    hw (eEmit W e p) (fun r h' => ∃ s' b', EOwn r.2 s' b' ∧ Ext A base (b' ++ bs) h' ∧ Called W A ev s p.world r.1 s' r.2.world) h := by
  refine hw_mono (erel_emit (W := W) (A := A) (base := base) p s (be ++ b) bs h ⟨be, b, hp, he, hl, rfl⟩ (hx.perm (by blocks)) (sound_defined hs)) ?_
  rintro ⟨r, q⟩ h' hr
  cases r with
  | ok u =>
    obtain ⟨a, b', k1, k2, k3, k4⟩ := hr
    exact ⟨_, b', k3, k4, k1, rfl, k2⟩
  | error e' =>
    obtain ⟨s', b', k1, k2, k3⟩ := hr
    exact ⟨s', b', k1, k2, k3⟩

end

/-! ### Events made by the constructors -/

/-- The text of a string argument. -/
def argText (b : List UInt8) : Option Text := apiText (cbytes b)

/-- An optional string argument. -/
def argOpt : Option (List UInt8) → Option (Option Text)
  | none => some none
  | some b => (argText b).map some

/-- The tag directives. -/
def argDirs : List (List UInt8 × List UInt8) → Option (List TagDir)
  | [] => some []
  | d :: ds =>
    match argText d.1, argText d.2, argDirs ds with
    | some a, some b, some r => some (⟨a, b⟩ :: r)
    | _, _, _ => none

/-- The event that the arguments of a call describe, if all strings are valid. -/
def EvCall.data : EvCall → Option EvData
  | .streamStart e => some (.streamStart e)
  | .streamEnd => some .streamEnd
  | .documentStart v ts i => (argDirs ts).map fun ts => .documentStart v ts i
  | .documentEnd i => some (.documentEnd i)
  | .alias a => (argText a).map .alias
  | .scalar a t v n p q st =>
    match argOpt a, argOpt t, apiText (valueBytes v n) with
    | some a, some t, some v => some (.scalar a t v p q st)
    | _, _, _ => none
  | .sequenceStart a t i st =>
    match argOpt a, argOpt t with
    | some a, some t => some (.sequenceStart a t i st)
    | _, _ => none
  | .sequenceEnd => some .sequenceEnd
  | .mappingStart a t i st =>
    match argOpt a, argOpt t with
    | some a, some t => some (.mappingStart a t i st)
    | _, _ => none
  | .mappingEnd => some .mappingEnd

theorem zero_textBytes {t : Text} (h : 0 ∈ t) : (0 : UInt8) ∈ textBytes t := by
  unfold textBytes
  exact List.mem_flatMap.mpr ⟨0, h, by decide⟩

theorem cbytes_nonzero (b : List UInt8) : (0 : UInt8) ∉ cbytes b := by
  induction b with
  | nil => simp [cbytes]
  | cons x r ih =>
    unfold cbytes at ih ⊢
    rw [List.takeWhile_cons]
    split
    · rename_i hx
      intro hm
      rcases List.mem_cons.mp hm with hm | hm
      · rw [← hm] at hx
        exact absurd hx (by decide)
      · exact ih hm
    · simp

theorem argText_ok {b : List UInt8} (h : checkUtf8 (cbytes b) = true) : ∃ t, argText b = some t ∧ cbytes b = textBytes t ∧ CText t := by
  obtain ⟨t, h1, h2⟩ := apiText_of_check h
  refine ⟨t, h1, h2, fun c hc => ⟨?_, .inl (((apiText_iff _ _).mp h1).2 c hc)⟩⟩
  rintro rfl
  have := zero_textBytes hc
  rw [← h2] at this
  exact cbytes_nonzero b this

theorem argOpt_ok {a : Option (List UInt8)} (h : OptOk a) : ∃ t, argOpt a = some t ∧ a.map cbytes = t.map textBytes ∧ ∀ x ∈ t, CText x := by
  cases a with
  | none => exact ⟨none, rfl, rfl, fun x hx => by cases hx⟩
  | some b =>
    obtain ⟨t, h1, h2, h3⟩ := argText_ok (h b rfl)
    exact ⟨some t, by simp [argOpt, h1], by simp [h2], fun x hx => by cases hx; exact h3⟩

theorem argDirs_ok {ts : List (List UInt8 × List UInt8)} (h : ∀ d ∈ ts, DirOk d) :
    ∃ ds, argDirs ts = some ds ∧ ts.map dirBytes = ds.map dirText ∧ ∀ d ∈ ds, CText d.handle ∧ CText d.pfx := by
  induction ts with
  | nil => exact ⟨[], rfl, rfl, fun d hd => by cases hd⟩
  | cons d ts ih =>
    obtain ⟨ds, h1, h2, h3⟩ := ih fun d hd => h d (.tail _ hd)
    obtain ⟨j1, j2⟩ := h d (.head _)
    obtain ⟨a, a1, a2, a3⟩ := argText_ok j1
    obtain ⟨b, b1, b2, b3⟩ := argText_ok j2
    refine ⟨⟨a, b⟩ :: ds, by simp [argDirs, a1, b1, h1], by simp [dirBytes, dirText, a2, b2, h2], ?_⟩
    intro x hx
    rcases List.mem_cons.mp hx with rfl | hx
    · exact ⟨a3, b3⟩
    · exact h3 x hx

/-- What a constructor makes is an event that the emitter can read. -/
theorem evHolds_event {c : EvCall} {e : HEvent} {b : Blocks} (hh : EvHolds c e b) (hv : c.Valid) : ∃ ev, c.data = some ev ∧ EventAt ev e b ∧ Legible ev := by
  cases c with
  | streamStart x => exact ⟨_, rfl, hh, trivial⟩
  | streamEnd => exact ⟨_, rfl, hh, trivial⟩
  | documentEnd x => exact ⟨_, rfl, hh, trivial⟩
  | sequenceEnd => exact ⟨_, rfl, hh, trivial⟩
  | mappingEnd => exact ⟨_, rfl, hh, trivial⟩
  | documentStart v ts i =>
    obtain ⟨ds, h1, h2, h3⟩ := argDirs_ok hv
    obtain ⟨p, s, b1, b2, k1, k2, k3, k4⟩ := hh
    rw [h2] at k3
    exact ⟨.documentStart v ds i, by simp [EvCall.data, h1], ⟨p, s, b1, b2, k1, k2, k3, k4⟩, h3⟩
  | «alias» a =>
    obtain ⟨t, h1, h2, h3⟩ := argText_ok hv
    obtain ⟨p, k1, k2⟩ := hh
    rw [h2] at k2
    exact ⟨.alias t, by simp [EvCall.data, h1], ⟨p, k1, k2⟩, h3⟩
  | scalar a t v n p q st =>
    obtain ⟨v1, v2, v3⟩ := hv
    obtain ⟨a', a1, a2, a3⟩ := argOpt_ok v1
    obtain ⟨t', t1, t2, t3⟩ := argOpt_ok v2
    obtain ⟨v', u1, u2⟩ := apiText_of_check v3
    obtain ⟨p1, p2, p3, b1, b2, b3, k1, k2, k3, k4, k5⟩ := hh
    rw [a2] at k2
    rw [t2] at k3
    rw [u2] at k1 k4
    exact ⟨.scalar a' t' v' p q st, by simp [EvCall.data, a1, t1, u1], ⟨p1, p2, p3, b1, b2, b3, k1, k2, k3, k4, k5⟩, a3, t3, ((apiText_iff _ _).mp u1).2⟩
  | sequenceStart a t i st =>
    obtain ⟨v1, v2⟩ := hv
    obtain ⟨a', a1, a2, a3⟩ := argOpt_ok v1
    obtain ⟨t', t1, t2, t3⟩ := argOpt_ok v2
    obtain ⟨p1, p2, b1, b2, k1, k2, k3, k4⟩ := hh
    rw [a2] at k2
    rw [t2] at k3
    exact ⟨.sequenceStart a' t' i st, by simp [EvCall.data, a1, t1], ⟨p1, p2, b1, b2, k1, k2, k3, k4⟩, a3, t3⟩
  | mappingStart a t i st =>
    obtain ⟨v1, v2⟩ := hv
    obtain ⟨a', a1, a2, a3⟩ := argOpt_ok v1
    obtain ⟨t', t1, t2, t3⟩ := argOpt_ok v2
    obtain ⟨p1, p2, b1, b2, k1, k2, k3, k4⟩ := hh
    rw [a2] at k2
    rw [t2] at k3
    exact ⟨.mappingStart a' t' i st, by simp [EvCall.data, a1, t1], ⟨p1, p2, b1, b2, k1, k2, k3, k4⟩, a3, t3⟩

end LibYaml
