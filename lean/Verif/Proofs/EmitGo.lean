import Verif.Proofs.EmitterQueue
import Verif.Proofs.QuotedWrite

/-!
# Emitting a list of events, without the queue

`go es Q s`: from the state `s` the events `es` are emitted one after the other, and the text written and the state afterwards satisfy
`Q`. The queue of the emitter only matters where an event looks at its successor (`Peek`).
-/

namespace LibYaml

open Spec

/-- A collection begins. -/
def opensNode : EvData → Bool
  | .sequenceStart .. | .mappingStart .. => true
  | _ => false

/-- What the queue shows when the event `e` is handled and `es` come next. -/
def Peek (e : EvData) (es q : List EvData) : Prop := ∃ r, q = e :: r ∧ (opensNode e = true → r.head? = es.head? ∧ r ≠ [])

/-- One event after the other. -/
def go : List EvData → (Text → Emitter → Prop) → Emitter → Prop
  | [], Q, s => ∀ q, Q [] { s with events := q }
  | e :: es, Q, s => ∀ q, Peek e es q → tw (do analyzeEvent e; emitterStep e) (fun _ t s' => go es (fun u s'' => Q (t ++ u) s'') s') { s with events := q }

theorem go_mono {es : List EvData} : ∀ {Q Q' : Text → Emitter → Prop} {s : Emitter}, go es Q s → (∀ t s', Q t s' → Q' t s') → go es Q' s := by
  induction es with
  | nil => intro Q Q' s h hQ q; exact hQ _ _ (h q)
  | cons e es ih =>
    intro Q Q' s h hQ q hq
    exact tw_mono (h q hq) fun _ t s' h' => ih h' fun u s'' => hQ _ _

theorem go_events {es : List EvData} {Q : Text → Emitter → Prop} {s : Emitter} (q : List EvData) : go es Q { s with events := q } ↔ go es Q s := by
  cases es with
  | nil => exact Iff.rfl
  | cons e es => exact Iff.rfl

/-! ### The queue -/

theorem needMore_peek {e : EvData} {r rest : List EvData} (h : needMore (e :: r) = false) : Peek e (r ++ rest) (e :: r) := by
  refine ⟨r, rfl, fun ho => ?_⟩
  have hr : r ≠ [] := by
    rintro rfl
    revert h
    cases e <;> first | (cases ho; done) | (simp [needMore, accumulate, levelLoop, levelChange])
  refine ⟨?_, hr⟩
  cases r with
  | nil => exact absurd rfl hr
  | cons x r => rfl

/-- The events stay in the queue until the step is done. -/
theorem tw_frame {α : Type} {m : EM α} {Q : α → Text → Emitter → Prop} {F : Emitter → Emitter → Prop} {s : Emitter} (h : tw m Q s)
    (hf : ∀ a, (m s).val = .ok a → F s (m s).st) : tw m (fun a t s' => Q a t s' ∧ F s s') s := by
  unfold tw at h ⊢
  cases hv : (m s).val with
  | error e => rw [hv] at h; exact h
  | ok a =>
    rw [hv] at h
    exact ⟨h, hf a hv⟩

theorem tw_and {α : Type} {m : EM α} {Q R : α → Text → Emitter → Prop} {s : Emitter} (h : tw m Q s) (h' : tw m R s) : tw m (fun a t s' => Q a t s' ∧ R a t s') s := by
  unfold tw at *
  cases hv : (m s).val with
  | error e => rw [hv] at h; exact h
  | ok a =>
    rw [hv] at h h'
    exact ⟨h, h'⟩

theorem tw_ewp {α : Type} {m : EM α} {Q : α → Text → Emitter → Prop} {R : α → Emitter → Prop} {E : EFail → Emitter → Prop} {s : Emitter} (h : tw m Q s)
    (h' : ewp m R E s) : tw m (fun a t s' => Q a t s' ∧ R a s') s := by
  unfold tw ewp at *
  cases hv : (m s).val with
  | error e => rw [hv] at h; exact h
  | ok a =>
    rw [hv] at h h'
    exact ⟨h, h'⟩

theorem tw_opE {Q : Unit → Text → Emitter → Prop} {s : Emitter} : tw (opE .alloc) Q s ↔ Q () [] s := Iff.rfl

/-- The loop over the queue. -/
theorem tw_emitLoop {rest : List EvData} : ∀ (n : Nat) {s : Emitter} {c : Cfg} {Q : Text → Emitter → Prop}, Inv s c → c.Good → s.events.length ≤ n →
    go (s.events ++ rest) Q s → tw (emitLoop n) (fun _ t s' => go (s'.events ++ rest) (fun u s'' => Q (t ++ u) s'') s') s := by
  intro n
  induction n with
  | zero =>
    intro s c Q hI hG hn h
    exact h
  | succ n ih =>
    intro s c Q hI hG hn h
    unfold emitLoop
    rw [tw_bind, tw_getE, tw_ite]
    split
    · exact h
    · rename_i hm
      cases hev : s.events with
      | nil => rw [hev] at hm; exact absurd rfl hm
      | cons e r =>
        dsimp only
        have hm' : needMore (e :: r) = false := by
          rw [hev] at hm
          cases h : needMore (e :: r) with
          | true => exact absurd h hm
          | false => rfl
        rw [hev] at h
        have h1 := h (e :: r) (needMore_peek hm')
        have hs : { s with events := e :: r } = s := by rw [← hev]
        rw [hs] at h1
        have h2 := ewp_event hI hG (e := e) (k := fun _ => pure ()) (Q := fun _ t => StepOk s c e t) (E := fun _ _ => True) (fun _ h => h) (fun _ _ _ => trivial)
        have h3 : ewp (do analyzeEvent e; emitterStep e) (fun _ t => StepOk s c e t) (fun _ _ => True) s := by
          rw [ewp_bind] at h2 ⊢
          refine ewp_mono h2 (fun _ t h => ?_) (fun _ _ _ => trivial)
          rw [ewp_bind] at h
          exact ewp_mono h (fun _ _ h => h) (fun _ _ _ => trivial)
        have h4 := tw_ewp h1 h3
        rw [tw_bind] at h4 ⊢
        refine tw_mono h4 fun _ t s1 h5 => ?_
        rw [tw_bind]
        refine tw_mono h5 fun _ u s2 h6 => ?_
        obtain ⟨h6, d, k1, k2, k3, k4, k5⟩ := h6
        rw [tw_bind, tw_modE]
        have hev' : s2.events.tail = r := by rw [k3, hev]; rfl
        rw [hev']
        have hlen : r.length ≤ n := by rw [hev, List.length_cons] at hn; omega
        refine tw_mono (ih (s := { s2 with events := r }) (k2.withEvents r) (hG.step k1) hlen ((go_events r).mpr h6)) fun _ w s3 h7 => ?_
        simpa only [List.append_assoc, List.nil_append] using h7

theorem tw_emit {rest : List EvData} {s : Emitter} {c : Cfg} {Q : Text → Emitter → Prop} (e : EvData) (h : AtRest s c) (hg : go (s.events ++ e :: rest) Q s) :
    tw (emit e) (fun _ t s' => go (s'.events ++ rest) (fun u s'' => Q (t ++ u) s'') s') s := by
  unfold emit
  rw [tw_bind, tw_opE, tw_bind, tw_modE, tw_bind, tw_getE]
  have h1 := tw_emitLoop (s := { s with events := s.events ++ [e] }) (rest := rest) (Q := Q) _ (h.1.withEvents _) h.2.1 (Nat.le_refl _)
    ((go_events _).mpr (by rw [List.append_assoc]; exact hg))
  exact h1

/-- The calls of `yaml_emitter_emit`. -/
theorem tw_emitAll : ∀ (evs : List EvData) {s : Emitter} {c : Cfg} {Q : Text → Emitter → Prop}, AtRest s c → go (s.events ++ evs) Q s →
    tw (emitAll evs) (fun _ t s' => go s'.events (fun u s'' => Q (t ++ u) s'') s') s := by
  intro evs
  induction evs with
  | nil =>
    intro s c Q h hg
    rw [List.append_nil] at hg
    exact hg
  | cons e evs ih =>
    intro s c Q h hg
    unfold emitAll
    rw [tw_bind]
    refine tw_mono (tw_ewp (tw_emit e h hg) (ewp_emit e h)) fun _ t s1 h1 => ?_
    obtain ⟨h1, done, d, _, _, _, k4, _⟩ := h1
    refine tw_mono (ih k4 h1) fun _ u s2 h2 => ?_
    simpa only [List.append_assoc] using h2

/-- A whole stream of events. -/
theorem tw_stream {evs : List EvData} {s : Emitter} {c : Cfg} {Q : Text → Emitter → Prop} (h : AtRest s c) (h0 : s.events = []) (he : c.run evs = some .ended)
    (hg : go evs Q s) : tw (emitAll evs) (fun _ t s' => Q t s') s := by
  have h1 := tw_emitAll evs h (Q := Q) (by rw [h0]; exact hg)
  refine tw_mono (tw_ewp h1 (ewp_emitAll evs h)) fun _ t s1 h2 => ?_
  obtain ⟨h2, done, d, k1, k2, _, k4, _⟩ := h2
  have hx : s1.events = [] := by
    refine nothing_held k4.2.2 (c := d) ?_
    rw [h0, List.nil_append] at k1
    rw [k1, Cfg.run_append, k2] at he
    exact he
  rw [hx] at h2
  have h3 : Q (t ++ []) { s1 with events := [] } := h2 []
  rw [List.append_nil, ← hx] at h3
  exact h3

/-! ### Putting runs together -/

/-- The events `es` are emitted from `s`, and what is written and the state afterwards satisfy `R`. -/
def Writes (es : List EvData) (R : Text → Emitter → Prop) (s : Emitter) : Prop :=
  ∀ rest Q, (∀ t s', R t s' → go rest (fun u s'' => Q (t ++ u) s'') s') → go (es ++ rest) Q s

/-- The step of an event is under way: `m` remains of it, and `es` are emitted afterwards. -/
def WritesFrom (m : EM Unit) (es : List EvData) (R : Text → Emitter → Prop) (s : Emitter) : Prop :=
  tw m (fun _ t s' => Writes es (fun u s'' => R (t ++ u) s'') s') s

theorem Writes.nil {R : Text → Emitter → Prop} {s : Emitter} (h : R [] s) : Writes [] R s := by
  intro rest Q hQ
  exact go_mono (hQ _ _ h) fun _ _ h => h

theorem Writes.mono {es : List EvData} {R R' : Text → Emitter → Prop} {s : Emitter} (h : Writes es R s) (hR : ∀ t s', R t s' → R' t s') : Writes es R' s :=
  fun rest Q hQ => h rest Q fun t s' h' => hQ t s' (hR t s' h')

theorem Writes.append {es fs : List EvData} {R : Text → Emitter → Prop} {s : Emitter}
    (h : Writes es (fun t s' => Writes fs (fun u s'' => R (t ++ u) s'') s') s) : Writes (es ++ fs) R s := by
  intro rest Q hQ
  rw [List.append_assoc]
  refine h (fs ++ rest) Q fun t s' h' => ?_
  refine h' rest _ fun u s'' h'' => go_mono (hQ _ _ h'') fun w s3 h3 => ?_
  rw [← List.append_assoc]
  exact h3

/-- One step. -/
theorem Writes.step {e : EvData} {es : List EvData} {R : Text → Emitter → Prop} {s : Emitter} (hne : opensNode e = true → es ≠ [])
    (h : ∀ q, Peek e es q → tw (analyzeEvent e) (fun _ t s' => WritesFrom (emitterStep e) es (fun u s'' => R (t ++ u) s'') s') { s with events := q }) :
    Writes (e :: es) R s := by
  intro rest Q hQ q hq
  have hp : Peek e es q := by
    obtain ⟨r, h1, h2⟩ := hq
    refine ⟨r, h1, fun ho => ?_⟩
    obtain ⟨k1, k2⟩ := h2 ho
    refine ⟨?_, k2⟩
    rw [k1]
    cases es with
    | nil => exact absurd rfl (hne ho)
    | cons x es => rfl
  rw [tw_bind]
  refine tw_mono (h q hp) fun _ t s1 h1 => ?_
  refine tw_mono h1 fun _ u s2 h2 => ?_
  refine h2 rest _ fun w s3 h3 => ?_
  refine go_mono (hQ _ _ h3) fun x s4 h4 => ?_
  simpa only [List.append_assoc] using h4

theorem WritesFrom.bind {m : EM α} {k : α → EM Unit} {es : List EvData} {R : Text → Emitter → Prop} {s : Emitter}
    (h : tw m (fun a t s' => WritesFrom (k a) es (fun u s'' => R (t ++ u) s'') s') s) : WritesFrom (m >>= k) es R s := by
  unfold WritesFrom at *
  rw [tw_bind]
  refine tw_mono h fun a t s1 h1 => tw_mono h1 fun _ u s2 h2 => ?_
  simpa only [List.append_assoc] using h2

theorem WritesFrom.mono {m : EM Unit} {es : List EvData} {R R' : Text → Emitter → Prop} {s : Emitter} (h : WritesFrom m es R s) (hR : ∀ t s', R t s' → R' t s') :
    WritesFrom m es R' s :=
  tw_mono h fun _ _ _ h1 => h1.mono fun _ _ => hR _ _

theorem WritesFrom.append {m : EM Unit} {es fs : List EvData} {R : Text → Emitter → Prop} {s : Emitter}
    (h : WritesFrom m es (fun t s' => Writes fs (fun u s'' => R (t ++ u) s'') s') s) : WritesFrom m (es ++ fs) R s := by
  refine tw_mono h fun _ t s1 h1 => ?_
  refine Writes.append (h1.mono fun u s2 h2 => ?_)
  simpa only [List.append_assoc] using h2

end LibYaml
