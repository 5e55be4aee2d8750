import Verif.Proofs.EmitterQueue
import Verif.Proofs.EmitterLine
import Verif.Proofs.EmitterSettings

/-!
# C39-C42, C48: the emitter

`Fresh s`: an emitter after `yaml_emitter_initialize` and any settings. `emitAll evs` calls `yaml_emitter_emit` for the
events in order up to the first failure, `emitEach` goes on after failures. `GoodEvent canonical e` (`Spec/EmitEvents.lean`) is
about the data of one event, `GStream` (`Spec/Events.lean`) about their order. In `(emitAll evs s).val` all writes and
allocations succeed; `Res.exec` has them fail.
-/

namespace LibYaml

open Spec

/-- An emitter that has not been used, with any settings. -/
def Fresh (s : Emitter) : Prop :=
  ∃ enc canonical bestIndent bestWidth unicode lineBreak,
    s = { encoding := enc, canonical := canonical, bestIndent := bestIndent, bestWidth := bestWidth, unicode := unicode,
          lineBreak := lineBreak }

/-- The events are the beginning of a stream, and their data are good. -/
def Emittable (canonical : Bool) (evs : List EvData) : Prop :=
  (∃ w, GStream w ∧ evs <+: w) ∧ ∀ e ∈ evs, GoodEvent canonical e

theorem Fresh.between {s : Emitter} (h : Fresh s) : AtRest s .start := by
  obtain ⟨enc, ca, bi, bw, u, lb, rfl⟩ := h
  exact ⟨.start ⟨rfl, rfl, fun x hx => (List.not_mem_nil hx).elim⟩ rfl rfl rfl, .start, rfl⟩

theorem Fresh.events {s : Emitter} (h : Fresh s) : s.events = [] := by
  obtain ⟨enc, ca, bi, bw, u, lb, rfl⟩ := h
  rfl

theorem emittable_run {ca : Bool} {evs : List EvData} :
    Emittable ca evs ↔ (∃ c, Cfg.start.run evs = some c) ∧ ∀ e ∈ evs, GoodEvent ca e := by
  unfold Emittable; rw [run_some_iff]

/-- The two outcomes. -/
theorem emitAll_outcome {s : Emitter} (hs : Fresh s) (evs : List EvData) :
    ((emitAll evs s).val = .ok () ∧ ∃ done d, evs = done ++ (emitAll evs s).st.events ∧ Cfg.start.run done = some d ∧
        (∀ e ∈ done, GoodEvent s.canonical e) ∧ AtRest (emitAll evs s).st d) ∨
    (∃ p, (emitAll evs s).val = .error (.emitter p) ∧ ∃ done d bad rest, evs = done ++ bad :: rest ∧
        Cfg.start.run done = some d ∧ (∀ e ∈ done, GoodEvent s.canonical e) ∧
        (d.step bad = none ∨ ¬ GoodEvent s.canonical bad)) := by
  have := ewp_emitAll evs hs.between
  unfold ewp at this
  rw [hs.events] at this
  split at this
  · rename_i a heq
    obtain ⟨done, d, h1, h2, h3, h4, _⟩ := this
    exact Or.inl ⟨heq, done, d, h1, h2, h3, h4⟩
  · rename_i err heq
    obtain ⟨⟨p, hp⟩, _, _, done, d, bad, rest, h1, h2, h3, h4⟩ := this
    exact Or.inr ⟨p, by rw [heq, hp], done, d, bad, rest, h1, h2, h3, h4⟩

/-- The first bad event is unique. -/
theorem run_prefix {c d : Cfg} {v w : List EvData} (h : c.run (v ++ w) = some d) : ∃ c', c.run v = some c' ∧ c'.run w = some d := by
  rw [Cfg.run_append] at h
  cases hv : c.run v with
  | none => rw [hv] at h; cases h
  | some c' => rw [hv] at h; exact ⟨c', rfl, h⟩

/-! ### C39 -/

/-- **C39, nothing else is refused.** Beginnings of streams with good data are emitted without an error. -/
theorem C39_accepts {s : Emitter} (hs : Fresh s) {evs : List EvData} (h : Emittable s.canonical evs) :
    (emitAll evs s).val = .ok () := by
  rcases emitAll_outcome hs evs with ⟨h1, _⟩ | ⟨p, _, done, d, bad, rest, rfl, h3, h4, h5⟩
  · exact h1
  · exfalso
    rw [emittable_run] at h
    obtain ⟨⟨c, hc⟩, hg⟩ := h
    obtain ⟨c', hc', hb⟩ := run_prefix hc
    rw [h3] at hc'
    injection hc' with hc'
    subst hc'
    rcases h5 with h5 | h5
    · rw [Cfg.run, h5] at hb; cases hb
    · exact h5 (hg bad (by simp))

/-- **C39, refusal.** The only error is an emitter error, at the first event with which the sequence is no longer the
beginning of a stream with good data. -/
theorem C39_refuses {s : Emitter} (hs : Fresh s) {evs : List EvData} (h : (emitAll evs s).val ≠ .ok ()) :
    ∃ p done bad rest, (emitAll evs s).val = .error (.emitter p) ∧ evs = done ++ bad :: rest ∧
      Emittable s.canonical done ∧ ¬ Emittable s.canonical (done ++ [bad]) := by
  rcases emitAll_outcome hs evs with ⟨h1, _⟩ | ⟨p, h2, done, d, bad, rest, h1, h3, h4, h5⟩
  · exact absurd h1 h
  · refine ⟨p, done, bad, rest, h2, h1, emittable_run.mpr ⟨⟨d, h3⟩, h4⟩, fun hg => ?_⟩
    rw [emittable_run] at hg
    obtain ⟨⟨c, hc⟩, hg⟩ := hg
    obtain ⟨c', hc', hb⟩ := run_prefix hc
    rw [h3] at hc'
    injection hc' with hc'
    subst hc'
    rcases h5 with h5 | h5
    · rw [Cfg.run, h5] at hb; cases hb
    · exact h5 (hg bad (by simp))

/-- **C39, exactness.** Without an error, everything except at most the last three events has been checked and is the
beginning of a stream with good data: an event that is not acceptable is refused at the latest with the third
event after it. -/
theorem C39_exact {s : Emitter} (hs : Fresh s) {evs : List EvData} (h : (emitAll evs s).val = .ok ()) :
    ∃ done held, evs = done ++ held ∧ Emittable s.canonical done ∧ held.length ≤ 3 ∧
      (emitAll evs s).st.events = held := by
  rcases emitAll_outcome hs evs with ⟨_, done, d, h1, h2, h3, h4⟩ | ⟨p, h2, _⟩
  · refine ⟨done, _, h1, emittable_run.mpr ⟨⟨d, h2⟩, h3⟩, ?_, rfl⟩
    rcases needMore_length h4.2.2 with h | ⟨e, rest, n, _, hn, hl, _⟩
    · rw [h]; simp
    · have : n ≤ 3 := by cases e <;> simp [accumulate] at hn <;> omega
      omega
  · rw [h] at h2; cases h2

theorem step_ended (e : EvData) : Cfg.ended.step e = none := by cases e <;> rfl

/-- **C39, after the end.** After a complete stream no event is processed any more: up to three can be queued (behind a
start event), the next call is refused. -/
theorem C39_after_end {s : Emitter} (hs : Fresh s) {w xs : List EvData} (hw : GStream w) (hx : xs ≠ []) :
    ¬ Emittable s.canonical (w ++ xs) ∧
    (((emitAll (w ++ xs) s).val = .ok ()) → xs.length ≤ 3 ∧ ∃ held, held.length ≤ 3 ∧ xs <:+ held ∧
      (emitAll (w ++ xs) s).st.events = held) := by
  have hno : ∀ done, w.length < done.length → done <+: w ++ xs → ¬ Emittable s.canonical done := by
    intro done hlt hp he
    rw [emittable_run] at he
    obtain ⟨⟨c, hc⟩, _⟩ := he
    obtain ⟨y, rfl⟩ : w <+: done := by
      obtain ⟨r, hr⟩ := hp
      have h1 : w <+: done ++ r := ⟨xs, by rw [hr]⟩
      exact List.prefix_of_prefix_length_le h1 ⟨r, rfl⟩ (by omega)
    obtain ⟨c', hc', hb⟩ := run_prefix hc
    rw [run_stream hw] at hc'
    injection hc' with hc'
    subst hc'
    cases y with
    | nil => simp at hlt
    | cons e y => rw [Cfg.run, step_ended] at hb; cases hb
  have hpos : 0 < xs.length := List.length_pos_iff.mpr hx
  refine ⟨hno _ (by rw [List.length_append]; omega) ⟨[], List.append_nil _⟩, fun hok => ?_⟩
  obtain ⟨done, held, h1, h2, h3, h4⟩ := C39_exact hs hok
  have hle : done.length ≤ w.length := by
    refine Nat.le_of_not_lt fun hlt => hno done hlt ⟨held, h1.symm⟩ h2
  have hsuf : xs <:+ held := by
    obtain ⟨y, rfl⟩ : done <+: w := List.prefix_of_prefix_length_le ⟨held, h1.symm⟩ ⟨xs, rfl⟩ hle
    rw [List.append_assoc, List.append_cancel_left_eq] at h1
    exact ⟨y, h1⟩
  exact ⟨Nat.le_trans hsuf.length_le h3, held, h3, hsuf, h4⟩

/-! A stream that is accepted, and one that is not. -/

def goodEvents : List EvData :=
  [.streamStart none, .documentStart (some ⟨1, 1⟩) [⟨[0x21, 0x65, 0x21], [0x74]⟩] false,
   .mappingStart (some [0x61]) none true .any, .scalar none (some [0x74, 0x75]) [0x6B] false false .plain, .alias [0x61],
   .mappingEnd, .documentEnd true, .streamEnd]

theorem goodEvents_stream : GStream goodEvents := by
  refine ⟨none, _, GDocs.cons ⟨some ⟨1, 1⟩, [⟨[0x21, 0x65, 0x21], [0x74]⟩], false,
    [.mappingStart (some [0x61]) none true .any, .scalar none (some [0x74, 0x75]) [0x6B] false false .plain, .alias [0x61],
      .mappingEnd], true, ?_, rfl⟩ .nil, rfl⟩
  exact .map _ _ _ _ (.pairsCons (.scalar _ _ _ _ _ _) (.alias _) .pairsNil)

theorem goodEvents_good : ∀ e ∈ goodEvents, GoodEvent false e := by
  unfold goodEvents
  simp only [List.mem_cons, List.not_mem_nil, or_false, forall_eq_or_imp, forall_eq]
  refine ⟨trivial, ⟨?_, ?_, ?_⟩, ?_, ?_, ?_, trivial, trivial, trivial⟩
  · rintro x ⟨⟩; exact ⟨rfl, Or.inl rfl⟩
  · intro d hd
    rw [List.mem_singleton.mp hd]
    exact ⟨Or.inr ⟨[0x65], rfl, by simp [Word]⟩, by simp⟩
  · simp
  · exact ⟨by simp [Name, Word], by simp⟩
  · exact ⟨by simp, by simp, by simp⟩
  · simp [GoodEvent, Name, Word]

/-- An environment without failures. -/
def calm : Env Unit := fun _ x => (true, x)

example : Emittable false goodEvents := ⟨⟨_, goodEvents_stream, List.prefix_rfl⟩, goodEvents_good⟩
example : ((emitAll goodEvents {}).exec calm ()).1 = .ok := by decide +kernel
example : ((emitAll [.streamStart none, .streamEnd, .streamEnd] {}).exec calm ()).1
    = .failed (.emitter "expected nothing after STREAM-END") := by decide +kernel
example : ((emitAll (goodEvents.take 3 ++ [.sequenceEnd, .alias [], .alias [], .alias []]) {}).exec calm ()).1
    = .failed (.emitter "expected SCALAR, SEQUENCE-START, MAPPING-START, or ALIAS") := by decide +kernel

/-! ### C40 -/

/-- **C40, without failing writes and allocations.** Whatever events a client emits, going on after emitter errors or not, no call
pops an empty stack (or does anything else undefined), and the flow level is never negative. -/
theorem C40_no_underflow {s : Emitter} (hs : Fresh s) (evs : List EvData) :
    (∀ r ∈ (emitEach evs s).1, r = .ok () ∨ ∃ p, r = .error (.emitter p)) ∧ 0 ≤ (emitEach evs s).2.flowLevel := by
  have := sound_emitEach evs (Or.inl ⟨_, hs.between⟩)
  exact ⟨this.1, this.2.flow⟩

/-- Calls in an environment, of a client that goes on after every failure: the outcomes, and the emitter at the end. -/
def execEach {σ : Type} (E : Env σ) : List EvData → Emitter → σ → List Outcome × Emitter × σ
  | [], s, x => ([], s, x)
  | e :: es, s, x =>
    match (emit e s).exec E x with
    | (o, t, y) =>
      match execEach E es t y with
      | (os, r) => (o :: os, r)

/-- A call that does not fail because of the environment ends as if nothing could fail. -/
theorem exec_calm {α σ : Type} (E : Env σ) (r : Res α) (x : σ) :
    (r.exec E x).1 = .environment ∨
    ((r.exec E x).2.1 = r.st ∧ (((r.exec E x).1 = .ok ∧ ∃ a, r.val = .ok a) ∨ ∃ e, (r.exec E x).1 = .failed e ∧ r.val = .error e)) := by
  unfold Res.exec
  split
  · exact Or.inl rfl
  · right
    split
    · rename_i a h; exact ⟨rfl, Or.inl ⟨rfl, a, h⟩⟩
    · rename_i e h; exact ⟨rfl, Or.inr ⟨e, rfl, h⟩⟩

/-- **C40, with failing writes and allocations.** In every environment, up to and including the first call that fails because of the
environment, no call does anything undefined. -/
theorem C40_until_failure_partial {σ : Type} (E : Env σ) {s : Emitter} (hs : Fresh s) (evs : List EvData) (x : σ) :
    ∀ n : Nat, (∀ m < n, (execEach E evs s x).1[m]? ≠ some .environment) →
      ∀ o : Outcome, (execEach E evs s x).1[n]? = some o → o = .ok ∨ o = .environment ∨ ∃ p, o = .failed (.emitter p) := by
  have key : ∀ (evs : List EvData) (s : Emitter) (x : σ), Sound s →
      ∀ n : Nat, (∀ m < n, (execEach E evs s x).1[m]? ≠ some .environment) →
      ∀ o : Outcome, (execEach E evs s x).1[n]? = some o → o = .ok ∨ o = .environment ∨ ∃ p, o = .failed (.emitter p) := by
    intro evs
    induction evs with
    | nil => intro s x _ n _ o ho; cases ho
    | cons e es ih =>
      intro s x hS n hn o ho
      have hk := sound_emit e hS
      unfold ewp at hk
      unfold execEach at hn ho
      rcases exec_calm E (emit e s) x with he | ⟨hst, he⟩
      · cases n with
        | zero =>
          injection ho with ho
          rw [← ho]; exact Or.inr (Or.inl he)
        | succ n =>
          refine absurd ?_ (hn 0 (by omega))
          exact congrArg some he
      · have hsound : Sound (emit e s).st ∧ (((emit e s).exec E x).1 = .ok ∨ ∃ p, ((emit e s).exec E x).1 = .failed (.emitter p)) := by
          rcases he with ⟨h1, a, ha⟩ | ⟨err, h1, herr⟩
          · rw [ha] at hk
            exact ⟨hk, Or.inl h1⟩
          · rw [herr] at hk
            obtain ⟨⟨p, hp⟩, h2⟩ := hk
            exact ⟨h2, Or.inr ⟨p, by rw [h1, hp]⟩⟩
        cases n with
        | zero =>
          injection ho with ho
          rw [← ho]
          rcases hsound.2 with h | h
          · exact Or.inl h
          · exact Or.inr (Or.inr h)
        | succ n =>
          refine ih ((emit e s).exec E x).2.1 ((emit e s).exec E x).2.2 (hst ▸ hsound.1) n (fun m hm => ?_) o ho
          have := hn (m + 1) (by omega)
          exact this
  exact key evs s x (Or.inl ⟨_, hs.between⟩)

/-- An environment in which exactly one output operation, number `n`, fails. -/
def failsAt (n : Nat) : Env Nat := fun op k =>
  match op with
  | .alloc => (true, k)
  | .out _ => (k != n, k + 1)

/-- `[a]` and the end of the document. -/
def flowEvents : List EvData :=
  [.streamStart none, .documentStart none [] true, .sequenceStart none none true .flow,
   .scalar none none [0x61] true true .any, .sequenceEnd, .documentEnd true]

/-- **C40 is violated** for a client that goes on after a failed write (emitter.c:763-773): the flow level and the
indentation are popped before `]` is written. When that write fails, the event stays at the head of the queue, and the
next call pops again: the flow level becomes -1 and the empty indentation stack is popped. The failing operation is
the output of `]`; with the writer of writer.c it fails when the output buffer is full at this character and the write
handler reports an error. -/
theorem C40_violated : (execEach (failsAt 2) flowEvents {} 0).1
      = [.ok, .ok, .ok, .ok, .environment, .failed .ub] ∧
    (execEach (failsAt 2) flowEvents {} 0).2.1.flowLevel = -1 := by decide +kernel

/-! ### C41 -/

/-- **C41.** The events processed so far and the events held back are, in this order, the emitted events. At most three are
held back: behind a DOCUMENT-START no more than one in total, behind a SEQUENCE-START two, behind a MAPPING-START three, the
start included. -/
theorem C41_order {s : Emitter} (hs : Fresh s) {evs : List EvData} (h : (emitAll evs s).val = .ok ()) :
    ∃ done c, evs = done ++ (emitAll evs s).st.events ∧ Cfg.start.run done = some c ∧ Inv (emitAll evs s).st c ∧
      ((emitAll evs s).st.events = [] ∨ ∃ e rest, (emitAll evs s).st.events = e :: rest ∧
        ((∃ v ts i, e = .documentStart v ts i ∧ rest.length = 0) ∨
         (∃ a t i st, e = .sequenceStart a t i st ∧ rest.length ≤ 1) ∨
         (∃ a t i st, e = .mappingStart a t i st ∧ rest.length ≤ 2))) := by
  rcases emitAll_outcome hs evs with ⟨_, done, d, h1, h2, h3, h4⟩ | ⟨p, h2, _⟩
  · refine ⟨done, d, h1, h2, h4.1, ?_⟩
    rcases needMore_length h4.2.2 with h | ⟨e, rest, n, he, hn, hl, _⟩
    · exact Or.inl h
    · refine Or.inr ⟨e, rest, he, ?_⟩
      rw [he, List.length_cons] at hl
      cases e with
      | documentStart v ts i => injection hn with hn; exact Or.inl ⟨v, ts, i, rfl, by omega⟩
      | sequenceStart a t i st => injection hn with hn; exact Or.inr (Or.inl ⟨a, t, i, st, rfl, by omega⟩)
      | mappingStart a t i st => injection hn with hn; exact Or.inr (Or.inr ⟨a, t, i, st, rfl, by omega⟩)
      | _ => cases hn
  · rw [h] at h2; cases h2

/-- **C41, the end.** After a complete stream nothing is held back. -/
theorem C41_end {s : Emitter} (hs : Fresh s) {w : List EvData} (hw : GStream w) (hg : ∀ e ∈ w, GoodEvent s.canonical e) :
    (emitAll w s).val = .ok () ∧ (emitAll w s).st.events = [] ∧ (emitAll w s).st.state = .ended := by
  have hok := C39_accepts hs (evs := w) ⟨⟨w, hw, List.prefix_rfl⟩, hg⟩
  rcases emitAll_outcome hs w with ⟨_, done, d, h1, h2, h3, h4⟩ | ⟨p, h2, _⟩
  · have hr := run_stream hw
    rw [h1] at hr
    obtain ⟨c, hc, hb⟩ := run_prefix hr
    rw [h2] at hc
    injection hc with hc
    subst hc
    have he := nothing_held h4.2.2 hb
    rw [he] at hb
    injection hb with hb
    subst hb
    refine ⟨hok, he, ?_⟩
    cases h4.1 with
    | ended _ hst _ => exact hst
  · rw [hok] at h2; cases h2

example : ((emitAll (goodEvents.take 3) {}).st.events.length) = 1 := by decide +kernel
example : ((emitAll goodEvents {}).st.events.length) = 0 := by decide +kernel

/-! ### C42 -/

/-- The style selected for a scalar, with the properties it must have. -/
structure SafeStyle (s : Emitter) (style : ScalarStyle) (noTag plainImplicit : Bool) : Prop where
  plain : style = .plain →
    (s.flowLevel ≠ 0 → s.scalar.flowPlainAllowed = true) ∧ (s.flowLevel = 0 → s.scalar.blockPlainAllowed = true) ∧
    (s.scalar.value = [] → s.flowLevel = 0 ∧ s.simpleKeyContext = false) ∧ (noTag = true → plainImplicit = true)
  single : style = .single → s.scalar.singleQuotedAllowed = true
  block : style = .literal ∨ style = .folded →
    s.scalar.blockAllowed = true ∧ s.flowLevel = 0 ∧ s.simpleKeyContext = false
  key : s.simpleKeyContext = true → s.scalar.multiline = true → style = .double
  canonical : s.canonical = true → style = .double
  chosen : style ≠ .any

/-- **C42.** Whatever style is requested, the selected style is safe in the context. The only refusal is for a scalar
without tag and implicit flags. A scalar that cannot be left without a tag in the selected style gets the tag `!`. -/
theorem C42_safe (p q : Bool) (st : ScalarStyle) (s : Emitter) :
    ewp (selectScalarStyle p q st)
      (fun _ t => t = { s with tagHandle := t.tagHandle, scalar := { s.scalar with style := t.scalar.style } } ∧
        SafeStyle s t.scalar.style (s.tagHandle.isNone && s.tagSuffix.isNone) p ∧
        t.tagHandle = (if (s.tagHandle.isNone && s.tagSuffix.isNone) = true ∧ q = false ∧ t.scalar.style ≠ .plain
          then some [0x21] else s.tagHandle))
      (fun err _ => (∃ pr, err = .emitter pr) ∧ s.tagHandle = none ∧ s.tagSuffix = none ∧ p = false ∧ q = false) s := by
  unfold selectScalarStyle
  rw [ewp_bind, ewp_getE]
  dsimp only
  rw [ewp_ite]
  split
  · rename_i h
    simp only [Bool.and_eq_true, Option.isNone_iff_eq_none, Bool.not_eq_true', and_assoc] at h
    exact ⟨⟨_, rfl⟩, h⟩
  · rename_i h
    rw [ewp_modE]
    generalize hn : (s.tagHandle.isNone && s.tagSuffix.isNone) = noTag
    refine ⟨rfl, ?_, ?_⟩
    · show SafeStyle s (s.quotedRules (s.plainRules noTag p st)) noTag p
      have hkey : s.simpleKeyContext = true → s.scalar.multiline = true → s.plainRules noTag p st = .double := by
        intro h1 h2
        unfold Emitter.plainRules
        simp [h1, h2]
      have hcan : s.canonical = true → s.plainRules noTag p st = .double := by
        intro h1
        unfold Emitter.plainRules
        simp [h1]
      have hq : s.plainRules noTag p st = .double → s.quotedRules (s.plainRules noTag p st) = .double := by
        intro h1
        rw [h1]; unfold Emitter.quotedRules; simp
      have hpl : s.plainRules noTag p st = .plain → ¬ ((s.flowLevel ≠ 0 ∧ s.scalar.flowPlainAllowed = false)
          ∨ (s.flowLevel = 0 ∧ s.scalar.blockPlainAllowed = false)
          ∨ (s.scalar.value = [] ∧ (s.flowLevel ≠ 0 ∨ s.simpleKeyContext = true)) ∨ (noTag = true ∧ p = false)) := by
        unfold Emitter.plainRules
        dsimp only
        generalize (if (s.simpleKeyContext && s.scalar.multiline) = true then ScalarStyle.double else _) = z
        intro h1
        split at h1
        · cases h1
        · rename_i h2
          exact fun h3 => h2 ⟨h1, h3⟩
      constructor
      · intro h1
        have h2 : s.plainRules noTag p st = .plain := by
          unfold Emitter.quotedRules at h1
          dsimp only at h1
          split at h1
          · cases h1
          · split at h1
            · cases h1
            · exact h1
        have h3 := hpl h2
        simp only [not_or, not_and] at h3
        obtain ⟨a, b, c, d⟩ := h3
        refine ⟨fun hx => by simpa using a hx, fun hx => by simpa using b hx, fun hx => ?_, fun hx => by simpa using d hx⟩
        have := c hx
        exact ⟨Classical.not_not.mp this.1, by simpa using this.2⟩
      · intro h1
        generalize s.plainRules noTag p st = z at h1
        unfold Emitter.quotedRules at h1
        dsimp only at h1
        by_cases h2 : z = .single ∧ s.scalar.singleQuotedAllowed = false
        · rw [if_pos h2, if_neg (by simp)] at h1
          cases h1
        · rw [if_neg h2] at h1
          split at h1
          · cases h1
          · simpa [h1] using h2
      · intro h1
        have h2 : ¬ ((s.quotedRules (s.plainRules noTag p st) = .literal ∨ s.quotedRules (s.plainRules noTag p st) = .folded)
            ∧ (s.scalar.blockAllowed = false ∨ s.flowLevel ≠ 0 ∨ s.simpleKeyContext = true)) := by
          generalize s.plainRules noTag p st = z
          unfold Emitter.quotedRules
          dsimp only
          generalize (if z = .single ∧ s.scalar.singleQuotedAllowed = false then ScalarStyle.double else z) = y
          split
          · simp
          · assumption
        have h3 : ¬ (s.scalar.blockAllowed = false ∨ s.flowLevel ≠ 0 ∨ s.simpleKeyContext = true) := fun h => h2 ⟨h1, h⟩
        simp only [not_or] at h3
        exact ⟨by simpa using h3.1, Classical.not_not.mp h3.2.1, by simpa using h3.2.2⟩
      · intro h1 h2
        exact hq (hkey h1 h2)
      · intro h1
        exact hq (hcan h1)
      · exact quotedRules_ne_any _ _ (plainRules_ne_any _ _ _ _)
    · dsimp only
      congr 1
      simp [Bool.and_eq_true, and_assoc]

/-- **C42, requests are honoured.** A requested style that is representable in the context is used. -/
theorem C42_honoured (p q : Bool) (st : ScalarStyle) (s : Emitter) (hc : s.canonical = false)
    (hk : ¬ (s.simpleKeyContext = true ∧ s.scalar.multiline = true)) (hst : st ≠ .any)
    (h : SafeStyle s st (s.tagHandle.isNone && s.tagSuffix.isNone) p) (hok : (selectScalarStyle p q st s).val = .ok ()) :
    (selectScalarStyle p q st s).st.scalar.style = st := by
  have key : s.quotedRules (s.plainRules (s.tagHandle.isNone && s.tagSuffix.isNone) p st) = st := by
    generalize (s.tagHandle.isNone && s.tagSuffix.isNone) = noTag at h ⊢
    have h1 : s.plainRules noTag p st = st := by
      have hb : (s.simpleKeyContext && s.scalar.multiline) = false := by
        cases hh : (s.simpleKeyContext && s.scalar.multiline) with
        | false => rfl
        | true => exact absurd (by simpa using hh) hk
      unfold Emitter.plainRules
      simp only [hc, hb, if_neg hst, Bool.false_eq_true, if_false]
      by_cases hp : st = .plain
      · obtain ⟨a, b, c, d⟩ := h.plain hp
        rw [if_neg]
        rintro ⟨_, h1 | h1 | h1 | h1⟩
        · rw [a h1.1] at h1; cases h1.2
        · rw [b h1.1] at h1; cases h1.2
        · have := c h1.1
          rcases h1.2 with h2 | h2
          · exact h2 this.1
          · rw [this.2] at h2; cases h2
        · rw [d h1.1] at h1; cases h1.2
      · rw [if_neg (fun h => hp h.1)]
    rw [h1]
    unfold Emitter.quotedRules
    dsimp only
    have hs1 : ¬ (st = .single ∧ s.scalar.singleQuotedAllowed = false) := by
      rintro ⟨h2, h3⟩
      rw [h.single h2] at h3; cases h3
    rw [if_neg hs1]
    rw [if_neg]
    rintro ⟨h2, h3⟩
    obtain ⟨a, b, c⟩ := h.block h2
    rcases h3 with h3 | h3 | h3
    · rw [a] at h3; cases h3
    · exact h3 b
    · rw [c] at h3; cases h3
  have : ewp (selectScalarStyle p q st) (fun _ t => t.scalar.style = st) (fun err _ => (selectScalarStyle p q st s).val = .error err) s := by
    unfold selectScalarStyle
    rw [ewp_bind, ewp_getE]
    dsimp only
    rw [ewp_ite]
    split
    · rename_i hx
      rw [ewp_failE]
      show (EM.bind getE _ s).val = _
      unfold EM.bind getE
      dsimp only
      rw [if_pos hx]; rfl
    · rw [ewp_modE]; exact key
  unfold ewp at this
  split at this
  · exact this
  · rw [hok] at this; cases this

/-- **C42, simple keys.** A scalar in simple key position, whatever its text and the requested style, is written on one
line. -/
theorem C42_one_line (p q : Bool) (st : ScalarStyle) (v : Text) (s : Emitter) (hk : s.simpleKeyContext = true) :
    (((do analyzeScalar v; selectScalarStyle p q st; processScalar) : EM Unit) s).st.line = s.line := by
  have h1 : ewp ((do analyzeScalar v; selectScalarStyle p q st; processScalar) : EM Unit) (fun _ t => t.line = s.line)
      (fun _ t => t.line = s.line) s := by
    rw [ewp_bind]
    unfold analyzeScalar
    rw [ewp_modE, ewp_bind]
    generalize hs0 : ({ s with scalar := { analyzeScalarData s.unicode v with style := s.scalar.style } } : Emitter) = s0
    have g1 : s0.line = s.line := by rw [← hs0]
    have g2 : s0.simpleKeyContext = true := by rw [← hs0]; exact hk
    have g3 : s0.scalar.value = v := by rw [← hs0]; exact analyze_value _ _
    have g4 : s0.scalar.multiline = v.any isBreak := by rw [← hs0]; exact analyze_multiline _ _
    have hsel := C42_safe p q st s0
    unfold ewp at hsel ⊢
    cases hval : (selectScalarStyle p q st s0).val with
    | error err =>
      dsimp only
      have : OneLine (selectScalarStyle p q st) := by
        unfold selectScalarStyle
        exact OneLine.getE.bind fun _ => OneLine.ite (fun _ => fun _ => rfl) fun _ => OneLine.modE fun _ => rfl
      exact (this s0).trans g1
    | ok a =>
      rw [hval] at hsel
      dsimp only at hsel ⊢
      obtain ⟨ht, hsafe, _⟩ := hsel
      generalize (selectScalarStyle p q st s0).st = t at ht hsafe
      have k1 : t.line = s.line := by rw [ht]; exact g1
      have k2 : t.simpleKeyContext = true := by rw [ht]; exact g2
      have k3 : t.scalar.value = v := by rw [ht]; exact g3
      have nobreak : t.scalar.style ≠ .double → v.any isBreak = false := by
        intro hne
        cases hb : v.any isBreak with
        | false => rfl
        | true => exact absurd (hsafe.key g2 (by rw [g4, hb])) hne
      have hl : (processScalar t).st.line = t.line := by
        show (EM.bind getE _ t).st.line = _
        unfold EM.bind getE
        dsimp only
        rw [k2, k3]
        cases hsty : t.scalar.style with
        | any => exact absurd hsty hsafe.chosen
        | plain => exact oneLine_writePlain (nobreak (by rw [hsty]; simp)) t
        | single => exact oneLine_writeSingle (nobreak (by rw [hsty]; simp)) t
        | double => exact oneLine_writeDouble v t
        | literal => have := (hsafe.block (Or.inl hsty)).2.2; rw [g2] at this; cases this
        | folded => have := (hsafe.block (Or.inr hsty)).2.2; rw [g2] at this; cases this
      show match (processScalar t).val with | _ => _
      cases (processScalar t).val <;> exact hl.trans k1
  unfold ewp at h1
  split at h1 <;> exact h1

example : (selectScalarStyle true true .folded { scalar := { analyzeScalarData false [0x61] with style := .any } }).st.scalar.style
    = .folded := by decide +kernel
example : (selectScalarStyle true true .folded
    { simpleKeyContext := true, scalar := { analyzeScalarData false [0x61, 0xA] with style := .any } }).st.scalar.style
    = .double := by decide +kernel

/-! ### C48 -/

/-- Settings with which the emitter works. -/
structure GoodSettings (x : Settings) : Prop where
  indent : 2 ≤ x.bestIndent ∧ x.bestIndent ≤ 9
  width : 2 * x.bestIndent < x.bestWidth
  encoding : x.encoding ≠ none
  lineBreak : x.lineBreak ≠ none

theorem good_normalize (s : Emitter) (enc : Option Enc) : GoodSettings (s.normalize enc).settings := by
  have hi : (s.normalize enc).settings.bestIndent = if s.bestIndent < 2 ∨ s.bestIndent > 9 then 2 else s.bestIndent := rfl
  have hpos : 2 ≤ (s.normalize enc).settings.bestIndent ∧ (s.normalize enc).settings.bestIndent ≤ 9 := by
    rw [hi]; split <;> omega
  have hw : (s.normalize enc).settings.bestWidth =
      if (if s.bestWidth ≥ 0 ∧ s.bestWidth ≤ (s.normalize enc).settings.bestIndent * 2 then 80 else s.bestWidth) < 0
      then 2147483647
      else (if s.bestWidth ≥ 0 ∧ s.bestWidth ≤ (s.normalize enc).settings.bestIndent * 2 then 80 else s.bestWidth) := rfl
  refine ⟨hpos, ?_, by simp [Emitter.normalize, Emitter.settings], by simp [Emitter.normalize, Emitter.settings]⟩
  rw [hw]
  generalize (s.normalize enc).settings.bestIndent = bi at hpos
  by_cases h : s.bestWidth ≥ 0 ∧ s.bestWidth ≤ bi * 2
  · rw [if_pos h]; split <;> omega
  · rw [if_neg h]; split <;> omega

/-- **C48.** With any settings, any events and any number of failed calls, once the stream has begun the settings are good:
indentation 2 to 9, a width of more than twice the indentation, an encoding and a line break. -/
theorem C48_settings {s : Emitter} (hs : Fresh s) (evs : List EvData) :
    (emitEach evs s).2.state = .streamStart ∨ GoodSettings (emitEach evs s).2.settings := by
  have key : ∀ (evs : List EvData) (s : Emitter), Normal GoodSettings s → Normal GoodSettings (emitEach evs s).2 := by
    intro evs
    induction evs with
    | nil => intro s h; exact h
    | cons e es ih => intro s h; exact ih _ (normal_emit good_normalize e s h)
  obtain ⟨enc, ca, bi, bw, u, lb, rfl⟩ := hs
  exact key evs _ (Or.inl rfl)

/-- **C48, choices are respected.** Good values are kept; the values are otherwise 2, 80, UTF-8 and LF, and a negative width means no
limit. -/
theorem C48_respected (s : Emitter) (enc : Option Enc) :
    (2 ≤ s.bestIndent ∧ s.bestIndent ≤ 9 → (s.normalize enc).bestIndent = s.bestIndent) ∧
    (¬ (2 ≤ s.bestIndent ∧ s.bestIndent ≤ 9) → (s.normalize enc).bestIndent = 2) ∧
    (s.bestWidth < 0 → (s.normalize enc).bestWidth = 2147483647) ∧
    (2 * (s.normalize enc).bestIndent < s.bestWidth → (s.normalize enc).bestWidth = s.bestWidth) ∧
    (0 ≤ s.bestWidth ∧ s.bestWidth ≤ 2 * (s.normalize enc).bestIndent → (s.normalize enc).bestWidth = 80) ∧
    (s.normalize enc).encoding = some (s.encoding.getD (enc.getD .utf8)) ∧
    (s.normalize enc).lineBreak = some (s.lineBreak.getD .ln) := by
  have hi : (s.normalize enc).bestIndent = if s.bestIndent < 2 ∨ s.bestIndent > 9 then 2 else s.bestIndent := rfl
  have hpos : 2 ≤ (s.normalize enc).bestIndent := by rw [hi]; split <;> omega
  have hw : (s.normalize enc).bestWidth =
      if (if s.bestWidth ≥ 0 ∧ s.bestWidth ≤ (s.normalize enc).bestIndent * 2 then 80 else s.bestWidth) < 0 then 2147483647
      else (if s.bestWidth ≥ 0 ∧ s.bestWidth ≤ (s.normalize enc).bestIndent * 2 then 80 else s.bestWidth) := rfl
  refine ⟨fun h => ?_, fun h => ?_, fun h => ?_, fun h => ?_, fun h => ?_, ?_, rfl⟩
  · rw [hi, if_neg (by omega)]
  · rw [hi, if_pos (by omega)]
  · rw [hw, if_neg (show ¬ (s.bestWidth ≥ 0 ∧ _) by omega), if_pos h]
  · rw [hw, if_neg (show ¬ (s.bestWidth ≥ 0 ∧ _) by omega), if_neg (by omega)]
  · rw [hw, if_pos (show (s.bestWidth ≥ 0 ∧ _) by omega), if_neg (by omega)]
  · show some ((s.encoding.or enc).getD .utf8) = _
    cases s.encoding <;> cases enc <;> rfl

/-- The setters: `yaml_emitter_set_indent` and `yaml_emitter_set_width` bring the values into their ranges in any order of
calls, so the values reaching the start of the stream are those chosen last. -/
theorem C48_setters (s : Emitter) (i w : Int) :
    (s.setIndent i).bestIndent = (if 2 ≤ i ∧ i ≤ 9 then i else 2) ∧ (s.setWidth w).bestWidth = (if 0 ≤ w then w else -1) ∧
    (s.setIndent i).setWidth w = (s.setWidth w).setIndent i := by
  refine ⟨?_, rfl, rfl⟩
  show (if 1 < i ∧ i < 10 then i else 2) = _
  split <;> split <;> omega

example : Fresh (((({} : Emitter).setIndent 40).setWidth (-3)).setCanonical true) := ⟨none, true, 2, -1, false, none, rfl⟩
example : (emitEach [.streamStart none] (({} : Emitter).setWidth 3)).2.settings = ⟨some .utf8, 2, 80, some .ln⟩ := by
  decide +kernel

end LibYaml
