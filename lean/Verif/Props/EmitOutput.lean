import Verif.Proofs.EmitClean
import Verif.Props.EmitParse
import Verif.Props.Writer

/-!
# C57: what the emitter hands to the writer; C50 for bytes

The emitter performs output operations (`EOp.out`), and the writer buffers, recodes and delivers their text (`runOps`). Here: every
operation is one the writer can carry out, the text is accepted by the reader, and the bytes a write handler receives for a whole
stream, when parsed, give the events back.
-/

namespace LibYaml

open Spec

theorem Fresh.ledger {s : Emitter} (h : Fresh s) : Ledger s := by
  obtain ⟨enc, ca, bi, bw, u, lb, rfl⟩ := h
  refine .fresh ⟨by simp, by simp, by simp, ?_⟩ rfl rfl
  exact fun _ _ h => absurd h List.not_mem_nil

theorem EOp.Marked.valid {op : WOp} (h : (EOp.out op).Marked) : op.Valid ∧ ∀ c ∈ op.text, Permitted c ∧ c < 0x10000 := by
  rcases h with h | h
  · exact ⟨h.1, fun c hc => ⟨(h.2 c hc).1, (h.2 c hc).2.1⟩⟩
  · injection h with h
    subst h
    exact ⟨⟨by simp, by simp [utf8s, utf8]⟩, by simp [WOp.text, Permitted]⟩

/-- **C57.** Whatever events are emitted, accepted or not: every output operation fits behind the check for room (at most six bytes), and
all its characters are permitted in a YAML stream and lie in the basic plane. -/
theorem C57_permitted {s : Emitter} (hs : Fresh s) (evs : List EvData) {op : WOp} {t : Emitter} (h : (.out op, t) ∈ (emitAll evs s).ops) :
    op.Valid ∧ ∀ c ∈ op.text, Permitted c ∧ c < 0x10000 :=
  ((ow_emitAll evs hs.ledger).1 _ h).1.valid

/-- The operations that are tried, up to and including the first that fails. -/
def tried {σ : Type} (E : Env σ) : List (EOp × Emitter) → σ → List EOp
  | [], _ => []
  | (op, _) :: ops, x =>
    match E op x with
    | (true, x) => op :: tried E ops x
    | (false, _) => [op]

/-- The operations that are tried in successive calls, of a client that goes on after every failure. -/
def triedEach {σ : Type} (E : Env σ) : List EvData → Emitter → σ → List EOp
  | [], _, _ => []
  | e :: es, s, x =>
    match (emit e s).exec E x with
    | (_, t, y) => tried E (emit e s).ops x ++ triedEach E es t y

theorem mem_tried {σ : Type} {E : Env σ} {op : EOp} : ∀ {ops : List (EOp × Emitter)} {x : σ}, op ∈ tried E ops x → ∃ t, (op, t) ∈ ops := by
  intro ops
  induction ops with
  | nil => intro x h; cases h
  | cons p ops ih =>
    intro x h
    obtain ⟨q, t⟩ := p
    unfold tried at h
    split at h
    · rcases List.mem_cons.mp h with rfl | h
      · exact ⟨t, List.mem_cons_self⟩
      · obtain ⟨t', h⟩ := ih h
        exact ⟨t', List.mem_cons_of_mem _ h⟩
    · rw [List.mem_singleton.mp h]
      exact ⟨t, List.mem_cons_self⟩

theorem execOps_state {σ : Type} {E : Env σ} {s : Emitter} : ∀ {ops : List (EOp × Emitter)} {x y : σ}, execOps E ops x = (some s, y) → ∃ op, (op, s) ∈ ops := by
  intro ops
  induction ops with
  | nil => intro x y h; cases h
  | cons p ops ih =>
    intro x y h
    obtain ⟨q, t⟩ := p
    unfold execOps at h
    split at h
    · obtain ⟨op, h⟩ := ih h
      exact ⟨op, List.mem_cons_of_mem _ h⟩
    · injection h with h1 h2
      injection h1 with h1
      subst h1
      exact ⟨q, List.mem_cons_self⟩

/-- **C57, with failures.** The same in every environment, for a client that goes on after failed writes, failed allocations and emitter
errors. -/
theorem C57_in_every_environment {σ : Type} (E : Env σ) {s : Emitter} (hs : Fresh s) (evs : List EvData) (x : σ) {op : WOp} (h : .out op ∈ triedEach E evs s x) :
    op.Valid ∧ ∀ c ∈ op.text, Permitted c ∧ c < 0x10000 := by
  have key : ∀ (evs : List EvData) (s : Emitter) (x : σ), Ledger s → ∀ op ∈ triedEach E evs s x, op.Marked := by
    intro evs
    induction evs with
    | nil => intro s x _ op h; cases h
    | cons e es ih =>
      intro s x hl op h
      have ho := ow_emit e hl
      unfold triedEach at h
      rcases List.mem_append.mp h with h | h
      · obtain ⟨t, h⟩ := mem_tried h
        exact (ho.1 _ h).1
      · refine ih _ _ ?_ op h
        split
        · rename_i t y hx
          obtain ⟨op, hop⟩ := execOps_state hx
          exact (ho.1 _ hop).2
        · have := ho.2
          split <;> rename_i heq <;> rw [heq] at this <;> exact this
  exact (key evs s x hs.ledger _ h).valid

/-! ### The whole stream -/

/-- The output operations of a result. -/
def written {α : Type} (r : Res α) : List WOp := r.ops.filterMap fun p =>
  match p.1 with
  | .out op => some op
  | .alloc => none

theorem written_text {α : Type} (r : Res α) : (written r).flatMap WOp.text = r.text := by
  unfold written Res.text
  induction r.ops with
  | nil => rfl
  | cons p ops ih =>
    obtain ⟨op, t⟩ := p
    cases op with
    | alloc => simpa [opsText] using ih
    | out w => simp [opsText, ih]

theorem mem_written {α : Type} {r : Res α} {op : WOp} (h : op ∈ written r) : ∃ t, (.out op, t) ∈ r.ops := by
  obtain ⟨⟨q, t⟩, h1, h2⟩ := List.mem_filterMap.mp h
  cases q with
  | alloc => cases h2
  | out w =>
    injection h2 with h2
    subst h2
    exact ⟨t, h1⟩

theorem emitAll_append {v w : List EvData} {s : Emitter} (h : (emitAll v s).val = .ok ()) :
    (emitAll (v ++ w) s).ops = (emitAll v s).ops ++ (emitAll w (emitAll v s).st).ops ∧ (emitAll (v ++ w) s).val = (emitAll w (emitAll v s).st).val ∧
    (emitAll (v ++ w) s).st = (emitAll w (emitAll v s).st).st := by
  induction v generalizing s with
  | nil => exact ⟨rfl, rfl, rfl⟩
  | cons e v ih =>
    have hc : ∀ u, emitAll (e :: u) s = EM.bind (emit e) (fun _ => emitAll u) s := fun _ => rfl
    rw [List.cons_append]
    rw [hc] at h ⊢
    rw [hc]
    unfold EM.bind at h ⊢
    cases hv : (emit e s).val with
    | error err => rw [hv] at h; cases h
    | ok a =>
      rw [hv] at h
      dsimp only at h ⊢
      obtain ⟨h1, h2, h3⟩ := ih h
      rw [h1, h2, h3]
      exact ⟨(List.append_assoc ..).symm, rfl, rfl⟩

/-- Nothing is held back between documents. -/
theorem nothing_held_docs {es : List EvData} {c : Cfg} (h : needMore es = true) (hr : c.run es = some .docs) : es = [] := by
  rcases needMore_length h with h | ⟨e, rest, n, rfl, hn, _, hl⟩
  · exact h
  · exfalso
    have h1 : levelChange e = 1 := by cases e <;> simp [accumulate] at hn <;> rfl
    unfold levelLoop at hl
    rw [h1] at hl
    simp only [Int.zero_add, if_neg (show ¬ (1 : Int) = 0 by omega)] at hl
    rw [Cfg.run] at hr
    split at hr
    · cases hr
    · rename_i c' hc
      have hlt := levelLoop_run hl (by omega) hr
      have hs := height_step hc
      have h0 := height_nonneg c
      rw [h1] at hs
      have he : Cfg.docs.height = 1 := rfl
      have hc0 : c.height = 0 := by omega
      cases c with
      | start => cases e <;> simp [accumulate] at hn <;> cases hc
      | docs => cases hc0
      | doc fs => simp [Cfg.height] at hc0; omega
      | ended => cases e <;> cases hc

/-- Succeeds, and the last operation is a flush. -/
def Flushes {α : Type} (m : EM α) (s : Emitter) : Prop :=
  (∃ a, (m s).val = .ok a) ∧ ∃ (ops : List (EOp × Emitter)) (t : Emitter), (m s).ops = ops ++ [(.out .flush, t)]

theorem Flushes.after {α β : Type} {m : EM α} {k : α → EM β} {s : Emitter} {a : α} (h : (m s).val = .ok a) (hk : Flushes (k a) (m s).st) : Flushes (m >>= k) s := by
  obtain ⟨⟨b, hb⟩, ops, t, ho⟩ := hk
  show Flushes (EM.bind m k) s
  unfold Flushes EM.bind
  rw [h]
  exact ⟨⟨b, hb⟩, (m s).ops ++ ops, t, by simp only [ho, List.append_assoc]⟩

theorem Flushes.silent {α β : Type} {m : EM α} {k : α → EM β} {s : Emitter} (h : Flushes m s) (hk : ∀ a t, (k a t).ops = [] ∧ ∃ b, (k a t).val = .ok b) : Flushes (m >>= k) s := by
  obtain ⟨⟨a, ha⟩, ops, t, ho⟩ := h
  show Flushes (EM.bind m k) s
  unfold Flushes EM.bind
  rw [ha]
  exact ⟨(hk a _).2, ops, t, by simp only [ho, (hk a _).1, List.append_nil]⟩

/-- The end of the stream flushes. -/
theorem end_flush {s : Emitter} (h : AtRest s .docs) (h0 : s.events = []) : (written (emitAll [.streamEnd] s)).getLast? = some .flush := by
  have hst : s.state = .firstDocumentStart ∨ s.state = .documentStart := by
    cases h.1 with
    | docs _ h _ _ => exact h
  have key : Flushes (emitAll [.streamEnd]) s := by
    refine Flushes.silent (k := fun _ => pure ()) ?_ fun a t => ⟨rfl, (), rfl⟩
    refine Flushes.after (a := ()) rfl (Flushes.after (a := ()) rfl (Flushes.after (a := { s with events := s.events ++ [.streamEnd] }) rfl ?_))
    show Flushes (emitLoop (s.events ++ [EvData.streamEnd]).length) { s with events := s.events ++ [.streamEnd] }
    rw [h0]
    refine Flushes.after (a := { s with events := [.streamEnd] }) rfl ?_
    show Flushes (do analyzeEvent .streamEnd; emitterStep .streamEnd; modE fun s => { s with events := s.events.tail }; emitLoop 0) { s with events := [.streamEnd] }
    refine Flushes.after (a := ()) rfl (Flushes.silent ?_ fun a t => ⟨rfl, (), rfl⟩)
    have e : Flushes emitStreamEndEvent (analyzeEvent .streamEnd { s with events := [.streamEnd] }).st := by
      refine Flushes.after (a := (analyzeEvent .streamEnd { s with events := [.streamEnd] }).st) rfl ?_
      obtain ⟨a, ha, _⟩ := Quiet.whenE (b := (analyzeEvent .streamEnd { s with events := [.streamEnd] }).st.openEnded == 2)
        ((quiet_writeIndicator dots true false false).bind fun _ => Quiet.modBind (f := fun s => { s with openEnded := 0 }) (fun _ => rfl) fun _ => quiet_writeIndent)
        (analyzeEvent .streamEnd { s with events := [.streamEnd] }).st
      exact Flushes.after (a := ()) ha (Flushes.silent ⟨⟨(), rfl⟩, [], _, rfl⟩ fun a t => ⟨rfl, (), rfl⟩)
    have hs : (analyzeEvent .streamEnd { s with events := [.streamEnd] }).st.state = s.state := rfl
    revert e hs
    generalize (analyzeEvent .streamEnd { s with events := [.streamEnd] }).st = t
    intro e hs
    refine Flushes.after (a := t) rfl ?_
    rw [hs]
    rcases hst with h | h <;> rw [h] <;> exact e
  obtain ⟨_, ops, t, ht⟩ := key
  unfold written
  rw [ht]
  simp

/-- Before the end of the stream nothing is queued. -/
theorem rest_docs {s : Emitter} (hs : Fresh s) {v : List EvData} (hw : GStream (v ++ [.streamEnd])) (hg : ∀ x ∈ v ++ [EvData.streamEnd], GoodEvent s.canonical x) :
    (emitAll v s).val = .ok () ∧ AtRest (emitAll v s).st .docs ∧ (emitAll v s).st.events = [] := by
  have hok : (emitAll v s).val = .ok () :=
    C39_accepts hs ⟨⟨_, hw, List.prefix_append _ _⟩, fun x hx => hg x (List.mem_append_left _ hx)⟩
  rcases emitAll_outcome hs v with ⟨_, done, d, h1, h2, _, h4⟩ | ⟨p, h, _⟩
  · obtain ⟨c, hc, he⟩ := run_prefix (run_stream hw)
    have hc' : c = .docs := by
      rw [Cfg.run] at he
      split at he
      · cases he
      · rename_i c1 h
        cases c with
        | docs => rfl
        | start => cases h
        | ended => cases h
        | doc fs =>
          rcases fs with _ | ⟨f, _ | ⟨g, K⟩⟩
          · cases h
          · cases f <;> cases h
          · cases f <;> cases h
    subst hc'
    rw [h1] at hc
    obtain ⟨c, hc1, hc2⟩ := run_prefix hc
    rw [h2] at hc1
    injection hc1 with hc1
    subst hc1
    have h0 := nothing_held_docs h4.2.2 hc2
    rw [h0] at hc2
    injection hc2 with hc2
    subst hc2
    exact ⟨hok, h4, h0⟩
  · rw [hok] at h; cases h

/-- The first event. -/
theorem start_ops {s : Emitter} (hs : Fresh s) (e : Option Enc) :
    (emitAll [.streamStart e] s).val = .ok () ∧ Neat (emitAll [.streamStart e] s).st ∧
    written (emitAll [.streamStart e] s) = if (s.encoding.or e).getD .utf8 = .utf8 then [] else [.chars [0xFEFF]] := by
  have ht := hs.ledger.tidy
  obtain ⟨e0, ca, bi, bw, u, lb, rfl⟩ := hs
  have hn : ∀ (x : Option Enc), Neat (({ encoding := x, canonical := ca, bestIndent := if bi < 2 ∨ bi > 9 then 2 else bi, bestWidth := bw, unicode := u, lineBreak := lb, state := .firstDocumentStart } : Emitter)) := by
    intro x
    refine ⟨⟨by simp, by simp, by simp, fun _ _ h => absurd h List.not_mem_nil⟩, ?_, by simp, by simp⟩
    dsimp only
    split
    · decide
    · omega
  rcases e0 with _ | _ | _ | _ <;> rcases e with _ | _ | _ | _ <;> exact ⟨rfl, (hn none).mod rfl rfl rfl rfl rfl, rfl⟩

/-- The operations of a whole stream: a byte order mark unless the encoding is UTF-8, then operations without one, the last of them a
flush. -/
theorem stream_ops {s : Emitter} (hs : Fresh s) {e : Option Enc} {ds : List EvData} (hw : GStream (.streamStart e :: ds))
    (hg : ∀ x ∈ EvData.streamStart e :: ds, GoodEvent s.canonical x) :
    ∃ ops, written (emitAll (.streamStart e :: ds) s) = (if (s.encoding.or e).getD .utf8 = .utf8 then [] else [.chars [0xFEFF]]) ++ ops ∧
      (∀ op ∈ ops, op.Valid ∧ ∀ c ∈ op.text, Inked c) ∧ ops.getLast? = some .flush := by
  obtain ⟨h1, h2, h3⟩ := start_ops hs e
  obtain ⟨h4, _⟩ := emitAll_append (w := ds) h1
  have happ : ∀ (a b : List (EOp × Emitter)) (r : Res Unit), r.ops = a ++ b → written r = written (⟨a, .ok (), r.st⟩ : Res Unit) ++ written (⟨b, .ok (), r.st⟩ : Res Unit) := by
    intro a b r h
    unfold written
    rw [h, List.filterMap_append]
  refine ⟨written (emitAll ds (emitAll [.streamStart e] s).st), ?_, ?_, ?_⟩
  · rw [← h3]
    exact happ _ _ _ h4
  · intro op hop
    obtain ⟨t, hop⟩ := mem_written hop
    exact ((ow_neatAll ds h2).1 _ hop).1
  · obtain ⟨enc, docs, hd, heq⟩ := id hw
    have heq : EvData.streamStart e :: ds = .streamStart enc :: (docs ++ [.streamEnd]) := heq
    injection heq with h5 h6
    subst h6
    have hw' : GStream ((.streamStart e :: docs) ++ [.streamEnd]) := hw
    obtain ⟨k1, k2, k3⟩ := rest_docs hs hw' hg
    have k4 := end_flush k2 k3
    obtain ⟨_, k5, k6⟩ := emitAll_append (w := docs) h1
    have k7 : (emitAll docs (emitAll [.streamStart e] s).st).val = .ok () := k5 ▸ k1
    obtain ⟨k8, _⟩ := emitAll_append (w := [.streamEnd]) k7
    rw [happ _ _ _ k8, List.getLast?_append]
    have k9 : emitAll (EvData.streamStart e :: docs) s = emitAll ([.streamStart e] ++ docs) s := rfl
    rw [k9, k6] at k4
    have : written (⟨(emitAll [.streamEnd] (emitAll docs (emitAll [.streamStart e] s).st).st).ops, .ok (), (emitAll (docs ++ [.streamEnd]) (emitAll [.streamStart e] s).st).st⟩ : Res Unit)
      = written (emitAll [.streamEnd] (emitAll docs (emitAll [.streamStart e] s).st).st) := rfl
    rw [this, k4]
    rfl

theorem valid_ops {s : Emitter} (hs : Fresh s) (evs : List EvData) : ∀ op ∈ written (emitAll evs s), op.Valid := by
  intro op h
  obtain ⟨t, h⟩ := mem_written h
  exact (C57_permitted hs evs h).1

/-- **C57, delivery.** For a whole stream, in all encodings and with every write handler: if no write fails, the handler has received exactly the
encoding of the text when the end of the stream has been emitted. In particular the defect of the UTF-16 writer (C09) has no effect on
the output of the emitter, which escapes the characters it concerns. -/
theorem C57_delivered {s : Emitter} (hs : Fresh s) {e : Option Enc} {ds : List EvData} (hw : GStream (.streamStart e :: ds))
    (hg : ∀ x ∈ EvData.streamStart e :: ds, GoodEvent s.canonical x) {σ : Type} (h : Handler σ) (I : σ → Prop) (hub : Safe h I) (x : σ) (hI : I x) :
    ∃ r st, runOps h (written (emitAll (.streamStart e :: ds) s)) (WS.init ((s.encoding.or e).getD .utf8) x) = .ok (r, st) ∧
      (r = true → st.trace.flatten = encodes ((s.encoding.or e).getD .utf8) (emitAll (.streamStart e :: ds) s).text) := by
  have hv := valid_ops hs (.streamStart e :: ds)
  have hl : (written (emitAll (.streamStart e :: ds) s)).getLast? = some .flush := by
    obtain ⟨ops, h1, _, h2⟩ := stream_ops hs hw hg
    rw [h1, List.getLast?_append, h2]
    rfl
  have hgood : ∀ c ∈ (written (emitAll (.streamStart e :: ds) s)).flatMap WOp.text, c ≤ 0x10FFFF ∧ GoodUtf16 c := by
    intro c hc
    obtain ⟨op, hop, hc⟩ := List.mem_flatMap.mp hc
    obtain ⟨t, hop⟩ := mem_written hop
    have := ((C57_permitted hs _ hop).2 c hc).2
    exact ⟨by omega, Or.inl this⟩
  rw [← written_text]
  generalize (s.encoding.or e).getD .utf8 = enc
  cases enc with
  | utf8 =>
    obtain ⟨r, st, h1, _, _, h2⟩ := C08_utf8_output_verbatim h I hub _ hv x hI
    exact ⟨r, st, h1, fun hr => h2 hr hl⟩
  | utf16le =>
    obtain ⟨r, st, h1, h2⟩ := C09_utf16_output_partial h I hub _ hv x hI true hgood hl
    exact ⟨r, st, h1, fun hr => (h2 hr).1⟩
  | utf16be =>
    obtain ⟨r, st, h1, h2⟩ := C09_utf16_output_partial h I hub _ hv x hI false hgood hl
    exact ⟨r, st, h1, fun hr => (h2 hr).1⟩

theorem detect_other {x : UInt8} {r : List UInt8} (h1 : x ≠ 0xFF) (h2 : x ≠ 0xFE) (h3 : x = 0xEF → ∀ r', r ≠ 0xBB :: 0xBF :: r') : detect (x :: r) = (.utf8, x :: r) := by
  unfold detect
  split
  · rename_i heq; injection heq with e1; exact absurd e1 h1
  · rename_i heq; injection heq with e1; exact absurd e1 h2
  · rename_i heq; injection heq with e1 e2; exact absurd e2 (h3 e1 _)
  · rfl

theorem ofNat_ne {n : Nat} {b : UInt8} (hn : n < 256) (h : n ≠ b.toNat) : UInt8.ofNat n ≠ b := by
  intro he
  apply h
  rw [← he, UInt8.toNat_ofNat']
  omega

/-- Text without a byte order mark, as UTF-8, is not mistaken for something else. -/
theorem detect_utf8s {t : Text} (h : ∀ c ∈ t, Inked c) : detect (utf8s t) = (.utf8, utf8s t) := by
  cases t with
  | nil => rfl
  | cons c t =>
    have hc := (h c List.mem_cons_self).2
    rw [utf8s_cons]
    unfold utf8
    split
    · exact detect_other (ofNat_ne (by omega) (show c ≠ 255 by omega)) (ofNat_ne (by omega) (show c ≠ 254 by omega)) fun he => absurd he (ofNat_ne (by omega) (show c ≠ 239 by omega))
    · split
      · exact detect_other (ofNat_ne (by omega) (show _ ≠ 255 by omega)) (ofNat_ne (by omega) (show _ ≠ 254 by omega)) fun he => absurd he (ofNat_ne (by omega) (show _ ≠ 239 by omega))
      · rw [if_pos hc.1]
        refine detect_other (ofNat_ne (by omega) (show _ ≠ 255 by omega)) (ofNat_ne (by omega) (show _ ≠ 254 by omega)) fun he r hr => ?_
        have hr : UInt8.ofNat (0x80 + c / 64 % 64) :: UInt8.ofNat (0x80 + c % 64) :: utf8s t = 0xBB :: 0xBF :: r := hr
        injection hr with e2 hr
        injection hr with e3 _
        have e1 := congrArg UInt8.toNat he
        have e2 := congrArg UInt8.toNat e2
        have e3 := congrArg UInt8.toNat e3
        rw [UInt8.toNat_ofNat'] at e1 e2 e3
        have f1 : (0xEF : UInt8).toNat = 239 := rfl
        have f2 : (0xBB : UInt8).toNat = 187 := rfl
        have f3 : (0xBF : UInt8).toNat = 191 := rfl
        omega

/-- **C50 for bytes, partial.** Emit a stream of events that is `Readable`, with any settings, in any encoding and to any write handler. If no write
fails, then parsing the bytes that the handler received, without being told the encoding, gives the same events up to presentation.
What is missing is what is missing from `C50_round_trip_partial`. -/
theorem C50_bytes_partial {s : Emitter} (hs : Fresh s) {w : List EvData} (hw : Readable s.canonical w) :
    (emitAll w s).val = .ok () ∧ ∀ e ds, w = .streamStart e :: ds →
      ∀ {σ : Type} (h : Handler σ) (I : σ → Prop) (_ : Safe h I) (x : σ) (_ : I x),
      ∃ r st, runOps h (written (emitAll w s)) (WS.init ((s.encoding.or e).getD .utf8) x) = .ok (r, st) ∧
        (r = true → ∀ (o : Oracle) (n : Int) (f fuel : Nat), NoFail o → st.trace.flatten.length < maxInt → st.trace.flatten.length + 3 < f →
          4 * st.trace.flatten.length + 7 < fuel → 2 ≤ n → n ≤ maxInt → (∀ h, Deep h w → (h : Int) < n) →
          ∃ (es : List Event) (p : _), parseBytes o n f fuel none st.trace.flatten w.length = .ok (es.map .event, p) ∧ p.error = none ∧ p.st.state = .done ∧
            List.Forall₂ Alike w (es.map Event.data)) := by
  obtain ⟨h1, mark, t, h2, h3, h4⟩ := C50_round_trip_partial hs hw
  refine ⟨h1, ?_⟩
  rintro e ds rfl σ h I hub x hI
  obtain ⟨r, st, k1, k2⟩ := C57_delivered hs hw.stream hw.good h I hub x hI
  refine ⟨r, st, k1, fun hr o n f fuel ho hlen hf hfuel hn2 hn3 hdeep => ?_⟩
  have hb := k2 hr
  obtain ⟨ops, m1, m2, _⟩ := stream_ops hs hw.stream hw.good
  have m3 := written_text (emitAll (.streamStart e :: ds) s)
  rw [m1, List.flatMap_append, h2] at m3
  have hm := h3 e ds rfl
  have ht : ops.flatMap WOp.text = t := by
    rw [hm] at m3
    revert m3
    split
    · exact id
    · intro m3
      exact List.append_cancel_left m3
  have hink : ∀ c ∈ t, Inked c := by
    rw [← ht]
    intro c hc
    obtain ⟨op, hop, hc⟩ := List.mem_flatMap.mp hc
    exact (m2 op hop).2 c hc
  have hdec : Decodes (chosen none st.trace.flatten).1 (chosen none st.trace.flatten).2 t := by
    rw [hb, h2, hm]
    show Decodes (detect _).1 (detect _).2 t
    generalize (s.encoding.or e).getD .utf8 = enc
    cases enc with
    | utf8 =>
      have : encodes Enc.utf8 ((if Enc.utf8 = Enc.utf8 then [] else [0xFEFF]) ++ t) = utf8s t := rfl
      rw [this, detect_utf8s hink]
      exact ⟨rfl, fun c hc => (hink c hc).1⟩
    | utf16le =>
      have : encodes Enc.utf16le ((if Enc.utf16le = Enc.utf8 then [] else [0xFEFF]) ++ t) = 0xFF :: 0xFE :: encodes .utf16le t := by
        rw [if_neg (by decide)]
        rfl
      rw [this]
      exact ⟨rfl, fun c hc => (hink c hc).1⟩
    | utf16be =>
      have : encodes Enc.utf16be ((if Enc.utf16be = Enc.utf8 then [] else [0xFEFF]) ++ t) = 0xFE :: 0xFF :: encodes .utf16be t := by
        rw [if_neg (by decide)]
        rfl
      rw [this]
      exact ⟨rfl, fun c hc => (hink c hc).1⟩
  exact h4 o n none _ f fuel ho hdec hlen hf hfuel hn2 hn3 hdeep

/-! ### Concrete cases -/

/-- A scalar with an escape character and a character beyond the basic plane. -/
def hardEvents : List EvData :=
  [.streamStart (some .utf16le), .documentStart none [] true, .scalar none none [0x1B, 0x1F600] true true .plain, .documentEnd true, .streamEnd]

example : (emitAll hardEvents { unicode := true }).text = 0xFEFF :: lit ['"', '\\', 'e', '\\', 'U', '0', '0', '0', '1', 'F', '6', '0', '0', '"', '\n'] := by decide +kernel

example : GStream hardEvents ∧ ∀ x ∈ hardEvents, GoodEvent false x := by
  refine ⟨⟨some .utf16le, _, GDocs.cons ⟨none, [], true, [.scalar none none [0x1B, 0x1F600] true true .plain], true, .scalar .., rfl⟩ .nil, rfl⟩, ?_⟩
  unfold hardEvents
  simp [GoodEvent, GoodTags]

example : ∀ {σ : Type} (h : Handler σ) (I : σ → Prop) (_ : Safe h I) (x : σ) (_ : I x),
    ∃ r st, runOps h (written (emitAll twoDocuments {})) (WS.init .utf8 x) = .ok (r, st) := by
  intro σ h I hub x hI
  obtain ⟨r, st, h1, _⟩ := (C50_bytes_partial (s := {}) ⟨none, false, 0, 0, false, none, rfl⟩ twoDocuments_readable).2 none _ rfl h I hub x hI
  exact ⟨r, st, h1⟩

example : Safe okHandler (fun _ => True) := okHandler_safe

end LibYaml
