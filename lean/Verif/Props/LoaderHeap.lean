import Verif.Proofs.LoaderHeap
import Verif.Proofs.LoaderRun
import Verif.Props.DocumentHeap

/-!
# C62: the loader owns what it allocates

Heaps, allocation outcomes and events are arbitrary. `Loadable p`: the events to come are in an order that the loader expects; every parser
delivers such events (`C62_parser_events`). `Stringy`: anchors are ASCII, tags have no NUL. `loadedDoc p` is the document that the events
describe; it is the document of the model on values (`C62_same_document`).
-/

namespace LibYaml

open Spec

/-- All events to come have proper strings. -/
def HParser.Proper (p : HParser) : Prop := ∀ ev, some ev ∈ p.outcomes → Stringy ev.data

/-- One call never runs into undefined behaviour, whatever the allocations do. A success returns the document that the events describe, which
owns all new blocks. A failure returns an empty document; at most the blocks of `Lost` are left. -/
theorem C62_load (p : HParser) (h : Heap) (hf : h.Fresh) (hr : Loadable p) (hp : p.Proper) :
    ∃ ok hd p' h', hLoad p h = .ok ((ok, hd, p'), h') ∧ h'.Fresh ∧
      if ok then ∃ d b, loadedDoc p = some d ∧ DocAt d hd b ∧ Adds h b h' ∧ Loadable p' ∧ p'.Proper
      else hd = {} ∧ p'.aliases = {} ∧ ∃ leak, Lost leak ∧ Adds h leak h' := by
  obtain ⟨r, h', hr, hq⟩ := hw_out (hw_load' (A := False) (bs := [])
    (Q := fun r h' => h'.Fresh ∧ if r.1 then ∃ d b, loadedDoc p = some d ∧ DocAt d r.2.1 b ∧ Adds h b h' ∧ Loadable r.2.2 ∧ r.2.2.Proper
      else r.2.1 = {} ∧ r.2.2.aliases = {} ∧ ∃ leak, Lost leak ∧ Adds h leak h')
    (Ext.start hf (fun f => f.elim)) hr hp
    (fun h' p' leak k1 e' k2 _ => by
      rw [List.append_nil] at e'
      exact ⟨e'.fresh, rfl, k1, leak, k2, e'.cells, e'.keys, e'.sep⟩)
    (fun h' d hd p' b' k1 k2 k3 k4 e' => by
      rw [List.append_nil] at e'
      exact ⟨e'.fresh, d, b', k1, k4, ⟨e'.cells, e'.keys, e'.sep⟩, k2, stringy_suffix k3 hp⟩))
  exact ⟨r.1, r.2.1, r.2.2, h', hr, hq⟩

/-- With memory, the call succeeds exactly if the events describe a document, unless there are more than five million of them; and a failure
leaves the heap as it was. -/
theorem C62_load_with_memory (p : HParser) (h : Heap) (hf : h.Fresh) (hr : Loadable p) (hp : p.Proper) (hm : ∀ k, h.ok k = true)
    (hsize : ¬ stackLimit HNode (2 * p.outcomes.length)) :
    ∃ hd p' h', hLoad p h = .ok (((loadedDoc p).isSome, hd, p'), h') ∧ (loadedDoc p = none → h'.mem = h.mem) := by
  obtain ⟨r, h', hr, hq⟩ := hw_out (hw_load' (A := True) (bs := [])
    (Q := fun r h' => r.1 = (loadedDoc p).isSome ∧ (loadedDoc p = none → h'.mem = h.mem))
    (Ext.start hf (fun _ => hm)) hr hp
    (fun h' p' leak _ e' _ hA => by
      rcases hA trivial with hl | ⟨rfl, hn⟩
      · exact absurd hl hsize
      · rw [hn]
        exact ⟨rfl, fun _ => e'.done⟩)
    (fun h' d hd p' b' k1 _ _ _ _ => by
      rw [k1]
      exact ⟨rfl, fun hh => by cases hh⟩))
  obtain ⟨ok, hd, p'⟩ := r
  obtain ⟨rfl, hq⟩ := hq
  exact ⟨hd, p', h', hr, hq⟩

/-- Load `k` documents, or until a call fails, and delete each of them. -/
def loadAndDelete : Nat → HParser → HM Bool
  | 0, _ => return true
  | k + 1, p => do
    let (ok, d, p) ← hLoad p
    if ok then do
      documentDelete d
      loadAndDelete k p
    else return false

theorem hw_loadAndDelete {A : Prop} {base : Nat → Option Obj} {k : Nat} {p : HParser} {h : Heap} {M : Nat} (hM : p.outcomes.length ≤ M) (e : Ext A base [] h)
    (hr : Loadable p) (hp : p.Proper) :
    hw (loadAndDelete k p) (fun r h' => ∃ leak, Lost leak ∧ Ext A base leak h' ∧ (r = true → leak = []) ∧ (A → stackLimit HNode (2 * M) ∨ leak = [])) h := by
  induction k generalizing p h with
  | zero => exact ⟨[], .inl rfl, e, fun _ => rfl, fun _ => .inr rfl⟩
  | succ k ih =>
    unfold loadAndDelete
    rw [hw_bind]
    refine hw_load' e hr hp (fun h' p' leak k1 e' k2 hA => ?_) (fun h' d hd p' b' k1 k2 k3 k4 e' => ?_)
    · rw [List.append_nil] at e'
      refine ⟨leak, k2, e', fun hh => (by cases hh), fun a => (hA a).imp (fun hl => limit_mono hl ?_ (Nat.le_refl _)) (fun x => x.1)⟩
      omega
    · dsimp only
      rw [if_pos rfl, hw_bind]
      refine hw_documentDelete e' k4 (fun h' e2 => ?_)
      exact ih (Nat.le_trans k3.length_le hM) e2 k2 (stringy_suffix k3 hp)

/-- Whole histories: nothing is freed twice and nothing dangling is used. If no call fails, or no allocation fails and there are at most five
million events, then nothing leaks; in any case at most the blocks of `Lost` do. -/
theorem C62_history (k : Nat) (p : HParser) (h : Heap) (hf : h.Fresh) (hr : Loadable p) (hp : p.Proper) :
    ∃ r h', loadAndDelete k p h = .ok (r, h') ∧ (∃ leak, Lost leak ∧ Adds h leak h') ∧ (r = true → h'.mem = h.mem) ∧
      ((∀ k, h.ok k = true) → ¬ stackLimit HNode (2 * p.outcomes.length) → h'.mem = h.mem) := by
  obtain ⟨r, h', hr, leak, h1, h2, h3, h4⟩ := hw_out (hw_loadAndDelete (k := k) (Nat.le_refl _) (Ext.start hf (fun (x : ∀ k, h.ok k = true) => x)) hr hp)
  refine ⟨r, h', hr, ⟨leak, h1, h2.cells, h2.keys, h2.sep⟩, fun hh => ?_, fun ha hs => ?_⟩
  · obtain rfl := h3 hh
    exact h2.done
  · obtain rfl := (h4 ha).resolve_left hs
    exact h2.done

/-! ### What leaks -/

/-- Addresses in use after a failed call. -/
def demoLoad (es : List EvData) (h : Heap) : Option (Bool × List Nat) :=
  match hLoad { outcomes := es.map fun e => some { data := e, start := {}, stop := {} } } h with
  | .ok ((ok, _, _), h) => some (ok, (List.range 200).filter fun p => (h.mem p).isSome)
  | .error _ => none

/-- A document with a version directive. -/
def demoDirective : List EvData := [.streamStart (some .utf8), .documentStart (some ⟨1, 1⟩) [] false, .scalar none none [97] true true .plain, .documentEnd true]

/-- A sequence of 15 scalars and an empty sequence, the node with number 17. -/
def demoNested : List EvData := [.streamStart (some .utf8), .documentStart none [] true, .sequenceStart none none true .block] ++
  List.replicate 15 (.scalar none none [97] true true .plain) ++ [.sequenceStart none none true .flow, .sequenceEnd, .sequenceEnd, .documentEnd true]

/-- Both leaks are real: without memory for the stack of aliases, the version directive of the document is lost (block 2); without memory for the
seventeenth node, its list of children is lost (block 37). -/
theorem C62_violated : demoLoad demoDirective (demoHeap 1) = some (false, [0, 2]) ∧ demoLoad demoNested (demoHeap 22) = some (false, [0, 37]) := by
  decide +kernel

/- In these runs, all other failures of allocations leave the heap as it was. -/
example : ∀ k, k < 4 → k ≠ 1 → demoLoad demoDirective (demoHeap k) = some (false, [0]) := by decide +kernel
example : demoLoad demoDirective (demoHeap 4) = some (true, [0, 1, 2, 5, 6]) := by decide +kernel
example : ∀ k, k < 22 → demoLoad demoNested (demoHeap k) = some (false, [0]) := by decide +kernel

/- The events of these runs meet the hypotheses of the theorems. -/
def demoParser (es : List EvData) : HParser := { outcomes := es.map fun e => some { data := e, start := {}, stop := {} } }

example : Loadable (demoParser demoDirective) := by
  refine ⟨rfl, rfl, ⟨_, rfl⟩, .inr ⟨⟨_, _, _, rfl⟩, ?_⟩⟩
  simp only [List.map_cons, List.map_nil, Legal]
  trivial

example : Loadable (demoParser demoNested) := by
  refine ⟨rfl, rfl, ⟨_, rfl⟩, .inr ⟨⟨_, _, _, rfl⟩, ?_⟩⟩
  exact trivial

example : (demoParser demoDirective).Proper := by
  intro ev hev
  simp only [demoParser, demoDirective, List.map_cons, List.map_nil, List.mem_cons, Option.some.injEq, List.not_mem_nil, or_false] at hev
  rcases hev with rfl | rfl | rfl | rfl <;> simp [Stringy]

example : (loadedDoc (demoParser demoNested)).isSome = true ∧ ¬ stackLimit HNode (2 * (demoParser demoNested).outcomes.length) := by
  constructor
  · decide +kernel
  · unfold stackLimit; decide +kernel

/-! ### Events of the parser -/

/-- The events so far. -/
def Where.Rel : Where → Cfg → Prop
  | .start, c => c = .start
  | .between, c => c = .docs
  | .inside s, c => ∃ fs, c = .doc fs ∧ CRel s.nodes s.ctx fs

theorem legal_of_run {w : List Event} : ∀ {a : Where} {c c' : Cfg} {rest : Outcomes}, Where.Rel a c → c.run (w.map Event.data) = some c' →
    (∀ e es, rest ≠ some e :: es) → Legal a (w.map some ++ rest) := by
  induction w with
  | nil =>
    intro a c c' rest _ _ hrest
    cases rest with
    | nil => simp only [List.map_nil, List.nil_append, Legal]
    | cons o rest =>
      cases o with
      | none => simp only [List.map_nil, List.nil_append, Legal]
      | some e => exact absurd rfl (hrest e rest)
  | cons e w ih =>
    intro a c c' rest ha hrun hrest
    simp only [List.map_cons, Cfg.run] at hrun
    cases hs : c.step e.data with
    | none => rw [hs] at hrun; cases hrun
    | some c1 =>
      rw [hs] at hrun
      simp only at hrun
      simp only [List.map_cons, List.cons_append]
      cases a with
      | start =>
        cases ha
        simp only [Legal]
        cases hd : e.data with
        | streamStart enc => rw [hd] at hs; cases hs; exact ⟨⟨enc, rfl⟩, ih rfl hrun hrest⟩
        | _ => rw [hd] at hs; cases hs
      | between =>
        cases ha
        simp only [Legal]
        cases hd : e.data with
        | streamEnd => exact .inl rfl
        | documentStart v ts i =>
          rw [hd] at hs
          cases hs
          exact .inr ⟨⟨v, ts, i, rfl⟩, ih ⟨_, rfl, .root (.inl rfl)⟩ hrun hrest⟩
        | _ => rw [hd] at hs; cases hs
      | inside s =>
        obtain ⟨fs, rfl, hc⟩ := ha
        by_cases hde : ∃ b, e.data = .documentEnd b
        · obtain ⟨b, hb⟩ := hde
          simp only [Legal, hb]
          rw [hb] at hs
          cases fs with
          | nil => cases hs
          | cons f K =>
            cases f with
            | docEnd => cases K with
              | nil => cases hs; exact ih rfl hrun hrest
              | cons => cases hs
            | _ => cases hs
        · have hcf : ∃ gs, c1 = .doc gs := by
            cases fs with
            | nil => cases hd : e.data <;> rw [hd] at hs <;> cases hs
            | cons f K =>
              cases hd : e.data <;> rw [hd] at hs <;>
                first
                | (simp only [Cfg.step, Option.map_eq_some_iff] at hs; obtain ⟨g, _, rfl⟩ := hs; exact ⟨_, rfl⟩)
                | (exact (hde ⟨_, hd⟩).elim)
                | (cases f <;> cases hs <;> exact ⟨_, rfl⟩)
          obtain ⟨gs, rfl⟩ := hcf
          obtain ⟨h1, h2⟩ := composeEvent_rel (room := roomy) hc hs
          have hgoal : match composeEvent roomy e s with
              | .ok s => Legal (.inside s) (w.map some ++ rest)
              | .error err => err ≠ .ub := by
            cases hce : composeEvent roomy e s with
            | ok s' => exact ih ⟨gs, rfl, h2 s' hce⟩ hrun hrest
            | error err => intro hh; rw [hh] at hce; exact h1 hce
          cases hd : e.data <;> first | (exact (hde ⟨_, hd⟩).elim) | (simp only [Legal, hd]; exact hgoal)

/-- The events that a parser returns from the start of a stream, followed by nothing or by a failure, are loadable. -/
theorem C62_parser_events {σ : Type} {S : TokSrc σ} (hS : S.Safe) (n : Int) (fuel : Nat) (x : σ) {w : List Event} {q : Parser σ}
    (h : Evs S n fuel (Parser.init x) w q) (failed : List Unit) : Loadable { outcomes := w.map some ++ failed.map fun _ => none } := by
  obtain ⟨c, hc, _, _⟩ := parseN_inv hS (init_inv x) (init_tinv S x) h.parseN
  rw [events_map] at hc
  refine ⟨rfl, rfl, legal_of_run (c := .start) rfl hc ?_⟩
  intro e es hh
  cases failed <;> simp at hh

/-- What a call of the model on values says about the events: those that it took, `w`, describe the document that it returned; or it failed
because the parser failed behind `w`, or because of `w`. -/
def Agrees {σ : Type} (S : TokSrc σ) (n : Int) (fuel : Nat) (p : Parser σ) (w : List Event) (o : LOut) (q : Parser σ) : Prop :=
  match o with
  | .doc d => Evs S n fuel p w q ∧ ∀ rest, loadedDoc { started := p.st.state ≠ .streamStart, ended := p.st.ended, outcomes := w.map some ++ rest } = some d
  | .failed => ∃ p1, Evs S n fuel p w p1 ∧
      ((∃ q, parse S n fuel p1 = .ok (.failed, q) ∧
          ∀ rest, loadedDoc { started := p.st.state ≠ .streamStart, ended := p.st.ended, outcomes := w.map some ++ none :: rest } = none) ∨
        ∀ rest, loadedDoc { started := p.st.state ≠ .streamStart, ended := p.st.ended, outcomes := w.map some ++ rest } = none)

theorem loadNodes_composed {σ : Type} {S : TokSrc σ} {n : Int} {fuel k : Nat} : ∀ {s : CState} {p q : Parser σ} {o : NOut},
    loadNodes roomy S n fuel k s p = .ok (o, q) →
    match o with
    | .done s' b m => ∃ w, Evs S n fuel p w q ∧ ∀ rest, composed (w.map some ++ rest) s = some (s', b, m, rest)
    | .failed => ∃ w p1, Evs S n fuel p w p1 ∧ ((∃ q, parse S n fuel p1 = .ok (.failed, q) ∧ ∀ rest, composed (w.map some ++ none :: rest) s = none) ∨
        ∀ rest, composed (w.map some ++ rest) s = none) := by
  induction k with
  | zero => intro s p q o h; cases h
  | succ k ih =>
    intro s p q o h
    simp only [loadNodes] at h
    cases hp : parse S n fuel p with
    | error e => rw [hp] at h; cases h
    | ok r =>
      obtain ⟨e, p1⟩ := r
      rw [hp] at h
      cases e with
      | noEvent => cases h
      | failed =>
        cases h
        exact ⟨[], p, .nil, .inl ⟨_, hp, fun rest => by simp only [List.map_nil, List.nil_append, composed]⟩⟩
      | event e =>
        simp only at h
        by_cases hde : ∃ b, e.data = .documentEnd b
        · obtain ⟨b, hb⟩ := hde
          simp only [hb] at h
          cases h
          exact ⟨[e], Evs.one hp, fun rest => by simp only [List.map_cons, List.map_nil, List.cons_append, List.nil_append, composed, hb]⟩
        · have h2 : (match composeEvent roomy e s with
              | .ok s => loadNodes roomy S n fuel k s p1
              | .error .ub => .error .ub
              | .error err => .ok (.failed, { p1 with error := some err })) = .ok (o, q) := by
            revert h
            cases hd : e.data <;> first | (exact (hde ⟨_, hd⟩).elim) | (exact id)
          have hc : ∀ es, composed (some e :: es) s = match composeEvent roomy e s with
              | .ok s => composed es s
              | .error _ => none := by
            intro es
            cases hd : e.data <;> first | (exact (hde ⟨_, hd⟩).elim) | (simp only [composed, hd]; cases composeEvent roomy e s <;> rfl)
          cases hce : composeEvent roomy e s with
          | error err =>
            rw [hce] at h2
            have : o = .failed := by cases err <;> cases h2 <;> rfl
            subst this
            refine ⟨[e], p1, Evs.one hp, .inr fun rest => ?_⟩
            simp only [List.map_cons, List.map_nil, List.cons_append, List.nil_append, hc, hce]
          | ok s1 =>
            rw [hce] at h2
            have := ih h2
            simp only [hce] at hc
            cases o with
            | done s' b m =>
              obtain ⟨w, h3, h4⟩ := this
              exact ⟨e :: w, .cons hp h3, fun rest => by simp only [List.map_cons, List.cons_append, hc, h4]⟩
            | failed =>
              obtain ⟨w, p2, h3, h4⟩ := this
              refine ⟨e :: w, p2, .cons hp h3, h4.imp (fun h5 => ?_) (fun h5 rest => ?_)⟩
              · obtain ⟨q', h6, h7⟩ := h5
                exact ⟨q', h6, fun rest => by simp only [List.map_cons, List.cons_append, hc, h7]⟩
              · simp only [List.map_cons, List.cons_append, hc, h5]

/-- `loadedDoc` is what the model on values returns, in every call from the start of a stream up to the first failed one. -/
theorem C62_same_document {σ : Type} {S : TokSrc σ} (hS : S.Safe) (n : Int) (fuel k : Nat) (p : Parser σ) {o : LOut} {q : Parser σ}
    (hready : Ready p .start ∨ Ready p .docs ∨ Ended p) (h : load roomy S n fuel k p = .ok (o, q)) : ∃ w, Agrees S n fuel p w o q := by
  have rest : ∀ {p : Parser σ} {q : Parser σ} {o : LOut}, p.st.ended = false → loadRest roomy S n fuel k p = .ok (o, q) →
      match o with
      | .doc d => ∃ w, Evs S n fuel p w q ∧ ∀ rest, nextDoc (w.map some ++ rest) = some d
      | .failed => ∃ w p1, Evs S n fuel p w p1 ∧ ((∃ q, parse S n fuel p1 = .ok (.failed, q) ∧ ∀ rest, nextDoc (w.map some ++ none :: rest) = none) ∨
          ∀ rest, nextDoc (w.map some ++ rest) = none) := by
    intro p q o he h
    simp only [loadRest, he] at h
    cases hp : parse S n fuel p with
    | error e => rw [hp] at h; cases h
    | ok r =>
      obtain ⟨e, p1⟩ := r
      rw [hp] at h
      cases e with
      | noEvent => cases h
      | failed =>
        cases h
        exact ⟨[], p, .nil, .inl ⟨_, hp, fun rest => rfl⟩⟩
      | event e =>
        cases hd : e.data with
        | streamEnd =>
          simp only [hd] at h
          cases h
          exact ⟨[e], Evs.one hp, fun rest => by simp only [List.map_cons, List.cons_append, nextDoc, hd]⟩
        | documentStart v ts i =>
          simp only [hd, loadDocument] at h
          cases hl : loadNodes roomy S n fuel k {} p1 with
          | error e => rw [hl] at h; cases h
          | ok r =>
            obtain ⟨o1, q1⟩ := r
            have := loadNodes_composed hl
            rw [hl] at h
            cases o1 with
            | done s b m =>
              cases h
              obtain ⟨w, h3, h4⟩ := this
              exact ⟨e :: w, .cons hp h3, fun rest => by simp only [List.map_cons, List.cons_append, nextDoc, hd, h4]; rfl⟩
            | failed =>
              cases h
              obtain ⟨w, p2, h3, h4⟩ := this
              refine ⟨e :: w, p2, .cons hp h3, h4.imp (fun h5 => ?_) (fun h5 rest => ?_)⟩
              · obtain ⟨q', h6, h7⟩ := h5
                exact ⟨q', h6, fun rest => by simp only [List.map_cons, List.cons_append, nextDoc, hd, h7]; rfl⟩
              · simp only [List.map_cons, List.cons_append, nextDoc, hd, h5]; rfl
        | _ => simp only [hd, loadDocument] at h; cases h
  unfold load at h
  by_cases hs : p.st.state = .streamStart
  · have hr : Ready p .start := by
      rcases hready with hr | hr | hr
      · exact hr
      · cases (pinv_start hr.inv).mp hs
      · exact absurd hs hr.state
    have hend := hr.going.ended
    rw [if_pos hs] at h
    rcases parse_step hS n fuel hr (by simp) with hp | ⟨e, p1, c', hp, hstep, hi, hE, herr⟩ | ⟨err, hp⟩
    · rw [hp] at h; cases h
    · rw [hp] at h
      cases hd : e.data with
      | streamStart enc =>
        simp only [hd] at h
        have := rest (hE.2 (by rw [hd]; simp)).ended h
        cases o with
        | doc d =>
          obtain ⟨w, h1, h2⟩ := this
          exact ⟨e :: w, .cons hp h1, fun rest => by simp [loadedDoc, hs, h2]⟩
        | failed =>
          obtain ⟨w, p2, h1, h2⟩ := this
          refine ⟨e :: w, p2, .cons hp h1, h2.imp (fun h5 => ?_) (fun h5 rest => ?_)⟩
          · obtain ⟨q', h6, h7⟩ := h5
            exact ⟨q', h6, fun rest => by simp [loadedDoc, hs, h7]⟩
          · simp [loadedDoc, hs, h5]
      | _ => rw [hd] at hstep; cases hstep
    · rw [hp] at h
      cases h
      exact ⟨[], p, .nil, .inl ⟨_, hp, fun rest => by simp [loadedDoc, hs]⟩⟩
  · rw [if_neg hs] at h
    by_cases he : p.st.ended = true
    · simp only [loadRest, he] at h
      cases h
      exact ⟨[], .nil, fun rest => by simp [loadedDoc, hs, he]⟩
    · rw [Bool.not_eq_true] at he
      have := rest he h
      cases o with
      | doc d =>
        obtain ⟨w, h1, h2⟩ := this
        exact ⟨w, h1, fun rest => by simp [loadedDoc, hs, he, h2]⟩
      | failed =>
        obtain ⟨w, p1, h1, h2⟩ := this
        refine ⟨w, p1, h1, h2.imp (fun h5 => ?_) (fun h5 rest => ?_)⟩
        · obtain ⟨q', h6, h7⟩ := h5
          exact ⟨q', h6, fun rest => by simp [loadedDoc, hs, he, h7]⟩
        · simp [loadedDoc, hs, he, h5]

end LibYaml
