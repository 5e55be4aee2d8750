import Verif.Proofs.DumpLoad

/-!
C61: documents that are dumped, emitted, written and loaded again.

Four parts of the library are put together: the dumper, the emitter, the writer (to any write handler, in any encoding) and the loader with the
reader, scanner and parser below it (bytes arriving in pieces of any sizes).
-/

namespace LibYaml

open Spec

variable {σ μ τ : Type}

/-- The writer, and the allocator: what the emitter's operations act upon. Undefined behaviour in the writer is kept as such. -/
def writerEnv (h : Handler σ) (mem : μ → Bool × μ) : Env (Except Fail (WS σ) × μ)
  | .out op, (.ok ws, m) =>
    match op.run h ws with
    | .ok (b, ws) => (b, (.ok ws, m))
    | .error e => (false, (.error e, m))
  | .out _, (.error e, m) => (false, (.error e, m))
  | .alloc, (ws, m) => ((mem m).1, (ws, (mem m).2))

/-- `yaml_emitter_emit` as the dumper sees it. -/
def emitTo (E : Env τ) (e : Event) (x : Emitter × τ) : Bool × (Emitter × τ) :=
  match (emit e.data x.1).exec E x.2 with
  | (.ok, s, y) => (true, (s, y))
  | (_, s, y) => (false, (s, y))

/-! ### All calls succeeded: what was written -/

theorem runOps_append (h : Handler σ) (u v : List WOp) (ws : WS σ) : runOps h (u ++ v) ws =
    match runOps h u ws with
    | .ok (true, ws) => runOps h v ws
    | r => r := by
  induction u generalizing ws with
  | nil => rfl
  | cons op u ih =>
    rw [List.cons_append, runOps, runOps]
    cases op.run h ws with
    | error e => rfl
    | ok r =>
      obtain ⟨b, ws⟩ := r
      cases b
      · rfl
      · exact ih ws

theorem exec_written {h : Handler σ} {mem : μ → Bool × μ} {ops : List (EOp × Emitter)} {ws : WS σ} {m : μ} {y : Except Fail (WS σ) × μ}
    (hx : execOps (writerEnv h mem) ops (.ok ws, m) = (none, y)) :
    ∃ ws' m', y = (.ok ws', m') ∧ runOps h (ops.filterMap fun p => match p.1 with | .out op => some op | .alloc => none) ws = .ok (true, ws') := by
  induction ops generalizing ws m with
  | nil =>
    cases hx
    exact ⟨ws, m, rfl, rfl⟩
  | cons p ops ih =>
    obtain ⟨op, t⟩ := p
    unfold execOps at hx
    cases op with
    | alloc =>
      simp only [writerEnv] at hx
      cases hb : (mem m).1 with
      | true =>
        rw [hb] at hx
        exact ih hx
      | false =>
        rw [hb] at hx
        cases hx
    | out op =>
      simp only [writerEnv] at hx
      cases hr : op.run h ws with
      | error e =>
        rw [hr] at hx
        cases hx
      | ok r =>
        obtain ⟨b, ws1⟩ := r
        rw [hr] at hx
        cases b with
        | false => cases hx
        | true =>
          obtain ⟨ws', m', h1, h2⟩ := ih hx
          refine ⟨ws', m', h1, ?_⟩
          simp only [List.filterMap_cons]
          unfold runOps
          rw [hr]
          exact h2

theorem feed_written {h : Handler σ} {mem : μ → Bool × μ} {w : List EvData} {s : Emitter} {ws : WS σ} {m : μ} {y : Emitter × Except Fail (WS σ) × μ}
    (hx : feedEvs (emitTo (writerEnv h mem)) w (s, (.ok ws, m)) = (true, y)) :
    (emitAll w s).val = .ok () ∧ ∃ ws' m', y = ((emitAll w s).st, (.ok ws', m')) ∧ runOps h (written (emitAll w s)) ws = .ok (true, ws') := by
  induction w generalizing s ws m with
  | nil =>
    cases hx
    exact ⟨rfl, ws, m, rfl, rfl⟩
  | cons e w ih =>
    have hc : emitAll (e :: w) s = EM.bind (emit e) (fun _ => emitAll w) s := rfl
    unfold feedEvs at hx
    simp only [emitTo, Res.exec] at hx
    cases he : execOps (writerEnv h mem) (emit e s).ops (.ok ws, m) with
    | mk o z =>
      rw [he] at hx
      cases o with
      | some t => cases hx
      | none =>
        obtain ⟨ws1, m1, rfl, h2⟩ := exec_written he
        simp only at hx
        cases hv : (emit e s).val with
        | error err => rw [hv] at hx; cases hx
        | ok a =>
          rw [hv] at hx
          obtain ⟨k1, ws2, m2, k2, k3⟩ := ih hx
          rw [hc]
          unfold EM.bind
          rw [hv]
          refine ⟨k1, ws2, m2, k2, ?_⟩
          have h3 : runOps h (written (emit e s)) ws = .ok (true, ws1) := h2
          have h4 : written ({ (emitAll w (emit e s).st) with ops := (emit e s).ops ++ (emitAll w (emit e s).st).ops } : Res Unit) =
              written (emit e s) ++ written (emitAll w (emit e s).st) := List.filterMap_append
          refine Eq.trans (congrArg (fun u => runOps h u ws) h4) ?_
          show runOps h (_ ++ _) ws = _
          rw [runOps_append, h3]
          exact k3

/-! ### When all calls succeed -/

theorem written_exec {h : Handler σ} {mem : μ → Bool × μ} (hmem : ∀ m, (mem m).1 = true) {ops : List (EOp × Emitter)} {ws ws' : WS σ} {m : μ}
    (hx : runOps h (ops.filterMap fun p => match p.1 with | .out op => some op | .alloc => none) ws = .ok (true, ws')) :
    ∃ m', execOps (writerEnv h mem) ops (.ok ws, m) = (none, (.ok ws', m')) := by
  induction ops generalizing ws m with
  | nil =>
    cases hx
    exact ⟨m, rfl⟩
  | cons p ops ih =>
    obtain ⟨op, t⟩ := p
    unfold execOps
    cases op with
    | alloc =>
      simp only [writerEnv, hmem]
      exact ih hx
    | out op =>
      simp only [List.filterMap_cons] at hx
      unfold runOps at hx
      simp only [writerEnv]
      cases hr : op.run h ws with
      | error e => rw [hr] at hx; cases hx
      | ok r =>
        obtain ⟨b, ws1⟩ := r
        rw [hr] at hx
        cases b with
        | false => cases hx
        | true => exact ih hx

theorem written_feed {h : Handler σ} {mem : μ → Bool × μ} (hmem : ∀ m, (mem m).1 = true) {w : List EvData} {s : Emitter} {ws ws' : WS σ} {m : μ}
    (hval : (emitAll w s).val = .ok ()) (hx : runOps h (written (emitAll w s)) ws = .ok (true, ws')) :
    ∃ m', feedEvs (emitTo (writerEnv h mem)) w (s, (.ok ws, m)) = (true, ((emitAll w s).st, (.ok ws', m'))) := by
  induction w generalizing s ws m with
  | nil =>
    cases hx
    exact ⟨m, rfl⟩
  | cons e w ih =>
    have hc : emitAll (e :: w) s = EM.bind (emit e) (fun _ => emitAll w) s := rfl
    rw [hc] at hval hx ⊢
    unfold EM.bind at hval hx ⊢
    cases hv : (emit e s).val with
    | error err =>
      rw [hv] at hval
      cases hval
    | ok a =>
      rw [hv] at hval hx
      have h4 : written ({ (emitAll w (emit e s).st) with ops := (emit e s).ops ++ (emitAll w (emit e s).st).ops } : Res Unit) =
          written (emit e s) ++ written (emitAll w (emit e s).st) := List.filterMap_append
      replace hx : runOps h (written (emit e s) ++ written (emitAll w (emit e s).st)) ws = .ok (true, ws') := by
        rw [← h4]
        exact hx
      rw [runOps_append] at hx
      cases hr : runOps h (written (emit e s)) ws with
      | error err => rw [hr] at hx; cases hx
      | ok r =>
        obtain ⟨b, ws1⟩ := r
        rw [hr] at hx
        cases b with
        | false => cases hx
        | true =>
          obtain ⟨m1, he⟩ := written_exec (m := m) hmem hr
          obtain ⟨m2, hf⟩ := ih (m := m1) hval hx
          refine ⟨m2, ?_⟩
          unfold feedEvs
          simp only [emitTo, Res.exec]
          rw [he, hv]
          exact hf

theorem runOps_true {h : Handler σ} (hh : ∀ s b, ∃ s', h s b = .ok (true, s')) {ops : List WOp} {ws ws' : WS σ} {b : Bool}
    (hx : runOps h ops ws = .ok (b, ws')) : b = true := by
  have hflush : ∀ {ws ws' : WS σ} {b : Bool}, LibYaml.flush h ws = .ok (b, ws') → b = true := by
    intro ws ws' b hf
    unfold LibYaml.flush at hf
    split at hf
    · cases hf; rfl
    · split at hf
      · obtain ⟨s', hs'⟩ := hh ws.sink ws.buf
        rw [hs'] at hf
        cases hf; rfl
      · split at hf
        · cases hf
        · rename_i raw _
          obtain ⟨s', hs'⟩ := hh ws.sink raw
          rw [hs'] at hf
          cases hf; rfl
  have hstore : ∀ {ws ws' : WS σ} {bytes : List UInt8} {b : Bool}, ws.store bytes = .ok (b, ws') → b = true := by
    intro ws ws' bytes b hf
    unfold WS.store at hf
    split at hf
    · cases hf; rfl
    · cases hf
  have hop : ∀ {op : WOp} {ws ws' : WS σ} {b : Bool}, op.run h ws = .ok (b, ws') → b = true := by
    intro op ws ws' b hf
    cases op with
    | flush => exact hflush hf
    | chars cs =>
      simp only [WOp.run, emitBytes] at hf
      split at hf
      · exact hstore hf
      · split at hf
        · cases hf
        · rename_i he
          cases hflush he
        · exact hstore hf
  induction ops generalizing ws with
  | nil => cases hx; rfl
  | cons op ops ih =>
    unfold runOps at hx
    split at hx
    · cases hx
    · rename_i he
      cases hop he
    · exact ih hx

/-- If the emitter accepts the events of the documents, all calls of the dumper succeed. -/
theorem feed_calls (em : Event → τ → Bool × τ) {fuel : Nat} {ds : List Doc} (hds : ∀ d ∈ ds, GraphOk d.nodes ∧ d.nodes ≠ [] ∧ d.nodes.length < fuel)
    {es : List EvData} (hes : DumpedDocs ds es) {x y : τ} (h : feedEvs em (.streamStart none :: es ++ [.streamEnd]) x = (true, y)) :
    ∃ bs r, runCalls em fuel (.opens :: ds.map .dumps ++ [.closes]) { out := x } = .ok (bs, r) ∧ ∀ b ∈ bs, b = true := by
  have docs : ∀ {ds : List Doc} {es : List EvData}, DumpedDocs ds es → (∀ d ∈ ds, GraphOk d.nodes ∧ d.nodes ≠ [] ∧ d.nodes.length < fuel) →
      ∀ {x : τ}, feedEvs em (es ++ [.streamEnd]) x = (true, y) → ∃ bs r,
        runCalls em fuel (ds.map .dumps ++ [.closes]) { opened := true, closed := false, last := 0, out := x } = .ok (bs, r) ∧ ∀ b ∈ bs, b = true := by
    intro ds es hes
    induction hes with
    | nil =>
      intro _ x h
      simp only [List.nil_append, feedEvs] at h
      simp only [List.map_nil, List.nil_append, runCalls, DCall.run, dClose, not_true_eq_false, if_false, Bool.false_eq_true]
      cases he : em { data := .streamEnd } x with
      | mk b o =>
        rw [he] at h
        cases b with
        | false => cases h
        | true => exact ⟨_, _, rfl, by simp⟩
    | @cons d ds w S es hw _ ih =>
      intro hds x h
      obtain ⟨g1, g2, g3⟩ := hds d (.head _)
      obtain ⟨w', S', hw', huniq, _, _, _, _, hd⟩ := C36_dump_follows_the_walk (τ := τ) g1 g2
      have hww := huniq w S hw
      subst hww
      rw [List.append_assoc, feedEvs_append] at h
      rw [List.map_cons, List.cons_append]
      unfold runCalls
      simp only [DCall.run]
      rw [hd em fuel _ g3 rfl rfl]
      simp only
      cases hf : feedEvs em (docEvents d (dumpName w) w) x with
      | mk b o =>
        rw [hf] at h
        cases b with
        | false => cases h
        | true =>
          obtain ⟨bs, r, hr, hb⟩ := ih (fun d hd => hds d (.tail _ hd)) h
          simp only
          rw [hr]
          refine ⟨_, _, rfl, ?_⟩
          intro b hb'
          cases hb' with
          | head => rfl
          | tail _ hb' => exact hb b hb'
  rw [List.cons_append] at h ⊢
  unfold runCalls
  simp only [DCall.run, dOpen, Bool.false_eq_true, if_false]
  unfold feedEvs at h
  cases he : em { data := .streamStart none } x with
  | mk b o =>
    rw [he] at h
    cases b with
    | false => cases h
    | true =>
      obtain ⟨bs, r, hr, hb⟩ := docs hes hds h
      simp only
      rw [hr]
      refine ⟨_, _, rfl, ?_⟩
      intro b hb'
      cases hb' with
      | head => rfl
      | tail _ hb' => exact hb b hb'

/-- If all calls of the dumper succeeded, the emitter accepted the events of the documents. -/
theorem calls_feed (em : Event → τ → Bool × τ) {fuel : Nat} {ds : List Doc} (hds : ∀ d ∈ ds, GraphOk d.nodes ∧ d.nodes ≠ [] ∧ d.nodes.length < fuel)
    {es : List EvData} (hes : DumpedDocs ds es) {x : τ} {bs : List Bool} {r : Dumper τ}
    (h : runCalls em fuel (.opens :: ds.map .dumps ++ [.closes]) { out := x } = .ok (bs, r)) (hb : ∀ b ∈ bs, b = true) :
    feedEvs em (.streamStart none :: es ++ [.streamEnd]) x = (true, r.out) := by
  have docs : ∀ {ds : List Doc} {es : List EvData}, DumpedDocs ds es → (∀ d ∈ ds, GraphOk d.nodes ∧ d.nodes ≠ [] ∧ d.nodes.length < fuel) →
      ∀ {x : τ} {bs : List Bool} {r : Dumper τ}, runCalls em fuel (ds.map .dumps ++ [.closes]) { opened := true, closed := false, last := 0, out := x } = .ok (bs, r) →
        (∀ b ∈ bs, b = true) → feedEvs em (es ++ [.streamEnd]) x = (true, r.out) := by
    intro ds es hes
    induction hes with
    | nil =>
      intro _ x bs r h hb
      simp only [List.map_nil, List.nil_append, runCalls, DCall.run, dClose, not_true_eq_false, if_false, Bool.false_eq_true] at h
      simp only [List.nil_append, feedEvs]
      cases he : em { data := .streamEnd } x with
      | mk b o =>
        rw [he] at h
        cases b with
        | false =>
          cases h
          exact absurd (hb false (by simp)) (by decide)
        | true =>
          cases h
          rfl
    | @cons d ds w S es hw _ ih =>
      intro hds x bs r h hb
      obtain ⟨g1, g2, g3⟩ := hds d (.head _)
      obtain ⟨w', S', hw', huniq, _, _, _, _, hd⟩ := C36_dump_follows_the_walk (τ := τ) g1 g2
      have hww := huniq w S hw
      subst hww
      rw [List.map_cons, List.cons_append] at h
      unfold runCalls at h
      simp only [DCall.run] at h
      rw [hd em fuel _ g3 rfl rfl] at h
      simp only at h
      rw [List.append_assoc, feedEvs_append]
      cases hf : feedEvs em (docEvents d (dumpName w) w) x with
      | mk b o =>
        rw [hf] at h
        simp only at h
        cases hr : runCalls em fuel (ds.map .dumps ++ [.closes]) { opened := true, closed := false, last := 0, out := o } with
        | error e => rw [hr] at h; cases h
        | ok z =>
          obtain ⟨bs', r'⟩ := z
          rw [hr] at h
          cases h
          have hbt := hb b (.head _)
          subst hbt
          exact ih (fun d hd => hds d (.tail _ hd)) hr (fun b hb' => hb b (.tail _ hb'))
  rw [List.cons_append] at h ⊢
  unfold runCalls at h
  simp only [DCall.run, dOpen, Bool.false_eq_true, if_false] at h
  unfold feedEvs
  cases he : em { data := .streamStart none } x with
  | mk b o =>
    rw [he] at h
    cases b with
    | false =>
      simp only at h
      cases hr : runCalls em fuel (ds.map .dumps ++ [.closes]) { opened := false, closed := false, last := 0, out := o } with
      | error e => rw [hr] at h; cases h
      | ok z =>
        obtain ⟨bs', r'⟩ := z
        rw [hr] at h
        cases h
        exact absurd (hb false (by simp)) (by decide)
    | true =>
      simp only at h
      cases hr : runCalls em fuel (ds.map .dumps ++ [.closes]) { opened := true, closed := false, last := 0, out := o } with
      | error e => rw [hr] at h; cases h
      | ok z =>
        obtain ⟨bs', r'⟩ := z
        rw [hr] at h
        cases h
        exact docs hes hds hr (fun b hb' => hb b (.tail _ hb'))

/-! ### How deep the events of documents are nested -/

theorem walk_level {nodes : List Node} {name : Nat → Option Text} {S is w S'} (h : NodeWalk nodes S is w S') :
    level (walkEvents nodes name w) = 0 ∧ ∀ p, p <+: walkEvents nodes name w → level p + S.length ≤ S'.length := by
  have flat : ∀ {e : Option EvData} {es : List EvData} {k : Int}, (∀ x, e = some x → level [x] = 0) → level es = 0 → 0 ≤ k →
      (∀ p, p <+: es → level p ≤ k) → level (e.toList ++ es) = 0 ∧ ∀ p, p <+: e.toList ++ es → level p ≤ k := by
    intro e es k he h1 h2 h3
    cases e with
    | none => exact ⟨h1, h3⟩
    | some x =>
      have hx := he x rfl
      refine ⟨by rw [level_append]; simp only [Option.toList, hx, h1]; rfl, fun p hp => ?_⟩
      cases p with
      | nil => exact h2
      | cons y p =>
        obtain ⟨t, ht⟩ := hp
        simp only [Option.toList, List.cons_append, List.nil_append, List.cons.injEq] at ht
        obtain ⟨rfl, rfl⟩ := ht
        have := h3 p ⟨t, rfl⟩
        have h4 := level_append [y] p
        rw [List.singleton_append] at h4
        omega
  induction h with
  | nil =>
    refine ⟨rfl, fun p hp => ?_⟩
    cases List.prefix_nil.mp hp
    simp [level]
  | @again S i is w S' _ hw ih =>
    have hl := walk_length hw
    have := flat (e := stepEvent nodes name (.again i)) (k := (S'.length : Int) - S.length) (fun x hx => by
      simp only [stepEvent, Option.map_eq_some_iff] at hx
      obtain ⟨_, _, rfl⟩ := hx
      rfl) ih.1 (by omega) (fun p hp => by have := ih.2 p hp; omega)
    have he : walkEvents nodes name (.again i :: w) = (stepEvent nodes name (.again i)).toList ++ walkEvents nodes name w := by
      simp only [walkEvents, List.filterMap_cons]
      cases stepEvent nodes name (.again i) <;> rfl
    rw [he]
    exact ⟨this.1, fun p hp => by have := this.2 p hp; omega⟩
  | @leaf S i is nd w S' _ _ hnd _ hw ih =>
    have hl := walk_length hw
    rw [List.length_cons] at hl
    have := flat (e := stepEvent nodes name (.leaf i)) (k := (S'.length : Int) - S.length) (fun x hx => by
      simp only [stepEvent] at hx
      split at hx
      · cases hx; rfl
      · cases hx) ih.1 (by omega) (fun p hp => by
        have := ih.2 p hp
        rw [List.length_cons] at this
        omega)
    have he : walkEvents nodes name (.leaf i :: w) = (stepEvent nodes name (.leaf i)).toList ++ walkEvents nodes name w := by
      simp only [walkEvents, List.filterMap_cons]
      cases stepEvent nodes name (.leaf i) <;> rfl
    rw [he]
    exact ⟨this.1, fun p hp => by have := this.2 p hp; omega⟩
  | @coll S i is nd c w S1 S' _ _ hnd hc hw1 hw2 ih1 ih2 =>
    have hl1 := walk_length hw1
    have hl2 := walk_length hw2
    rw [List.length_cons] at hl1
    have hev : ∃ a b, stepEvent nodes name (.enter i) = some a ∧ stepEvent nodes name (.leave i) = some b ∧ level [a] = 1 ∧ level [b] = -1 := by
      simp only [stepEvent, hnd]
      obtain ⟨tag, data, start, stop⟩ := nd
      cases data with
      | scalar v st => exact absurd hc (by simp [isColl])
      | sequence items st => exact ⟨_, _, rfl, rfl, rfl, rfl⟩
      | mapping ps st => exact ⟨_, _, rfl, rfl, rfl, rfl⟩
    obtain ⟨a, b, ha, hb, ka, kb⟩ := hev
    have he : walkEvents nodes name (.enter i :: (c ++ .leave i :: w)) = a :: (walkEvents nodes name c ++ b :: walkEvents nodes name w) := by
      simp [walkEvents, List.filterMap_append, ha, hb]
    rw [he]
    have hcons : ∀ x (u : List EvData), level (x :: u) = level [x] + level u := fun x u => level_append [x] u
    refine ⟨by rw [hcons, level_append, hcons b, ka, kb, ih1.1, ih2.1]; rfl, fun p hp => ?_⟩
    cases p with
    | nil => simp only [level]; omega
    | cons y p =>
      obtain ⟨t, ht⟩ := hp
      rw [List.cons_append, List.cons.injEq] at ht
      obtain ⟨rfl, ht⟩ := ht
      rw [hcons, ka]
      rcases List.append_eq_append_iff.mp ht with ⟨u, h1, h2⟩ | ⟨u, h1, h2⟩
      · have := ih1.2 p ⟨u, h1.symm⟩
        rw [List.length_cons] at this
        omega
      · rw [h1, level_append, ih1.1]
        cases u with
        | nil => simp only [level]; omega
        | cons z u =>
          rw [List.cons_append, List.cons.injEq] at h2
          obtain ⟨rfl, h2⟩ := h2
          rw [hcons, kb]
          have := ih2.2 u ⟨t, h2.symm⟩
          omega

/-- The events of documents are not nested deeper than a document has nodes. -/
theorem dumped_deep {ds : List Doc} {es : List EvData} (h : DumpedDocs ds es) : level es = 0 ∧ ∀ k, 0 < k → Deep k es → ∃ d ∈ ds, k ≤ d.nodes.length := by
  induction h with
  | nil =>
    refine ⟨rfl, fun k hk hd => ?_⟩
    obtain ⟨p, hp, hl⟩ := hd
    cases List.prefix_nil.mp hp
    simp only [level] at hl
    omega
  | @cons d ds w S es hw _ ih =>
    obtain ⟨h1, h2⟩ := walk_level (name := dumpName w) hw
    have hS : S.length ≤ d.nodes.length := nodup_length (walk_nodup hw .nil) (walk_valid hw (by simp))
    have hd1 : ∀ u, level (.documentStart d.version d.tags d.startImplicit :: u) = level u := fun u => rfl
    have hd2 : ∀ u, level (.documentEnd d.endImplicit :: u) = level u := fun u => rfl
    have he : docEvents d (dumpName w) w ++ es =
        .documentStart d.version d.tags d.startImplicit :: (walkEvents d.nodes (dumpName w) w ++ .documentEnd d.endImplicit :: es) := by
      simp [docEvents]
    rw [he]
    refine ⟨by rw [hd1, level_append, hd2, h1, ih.1]; rfl, ?_⟩
    rintro k hk ⟨p, hp, hl⟩
    cases p with
    | nil => simp only [level] at hl; omega
    | cons y p =>
      obtain ⟨t, ht⟩ := hp
      rw [List.cons_append, List.cons.injEq] at ht
      obtain ⟨rfl, ht⟩ := ht
      rw [hd1] at hl
      rcases List.append_eq_append_iff.mp ht with ⟨u, e1, e2⟩ | ⟨u, e1, e2⟩
      · have := h2 p ⟨u, e1.symm⟩
        rw [List.length_nil] at this
        exact ⟨d, .head _, by omega⟩
      · rw [e1, level_append, h1] at hl
        cases u with
        | nil => simp only [level] at hl; omega
        | cons z u =>
          rw [List.cons_append, List.cons.injEq] at e2
          obtain ⟨rfl, e2⟩ := e2
          rw [hd2] at hl
          obtain ⟨d', hd', hk'⟩ := ih.2 k hk ⟨u, ⟨t, e2.symm⟩, by omega⟩
          exact ⟨d', .tail _ hd', hk'⟩

/-! ### The round trip -/

theorem forall2_right {α β : Type} {R : α → β → Prop} {l : List α} {m : List β} (h : List.Forall₂ R l m) {b : β} (hb : b ∈ m) : (∃ a ∈ l, R a b) := by
  induction h with
  | nil => cases hb
  | cons r _ ih =>
    cases hb with
    | head => exact ⟨_, .head _, r⟩
    | tail _ hb =>
      obtain ⟨a, ha, r⟩ := ih hb
      exact ⟨a, .tail _ ha, r⟩

theorem forall2_chain {α β γ : Type} {R : α → β → Prop} {S : β → γ → Prop} {T : α → γ → Prop} {l : List α} {m : List β} {n : List γ}
    (h : List.Forall₂ R l m) (k : List.Forall₂ S m n) (hT : ∀ {a b c}, R a b → S b c → T a c) : List.Forall₂ T l n := by
  induction h generalizing n with
  | nil => cases k; exact .nil
  | cons r _ ih =>
    cases k with
    | cons s k => exact .cons (hT r s) (ih k)

/-- **C61.** Dump any documents that are `Dumpable`, with any settings of the emitter, to any write handler, in any encoding. If all calls succeed,
then the bytes that the handler received, loaded without being told the encoding, however they arrive, give the same documents up to
presentation, in order, and then the end of the stream. The first document must not be one that is written as nothing. -/
theorem C61_dump_then_load {s : Emitter} (hs : Fresh s) {ds : List Doc} (hds : ∀ d ∈ ds, Dumpable d)
    (hfirst : s.canonical = false → ∀ d, ds.head? = some d → ¬ Invisible d)
    {fuel0 : Nat} (hfuel0 : ∀ d ∈ ds, d.nodes.length < fuel0) (h : Handler σ) (I : σ → Prop) (hI : Safe h I) (x : σ) (hx : I x)
    (mem : μ → Bool × μ) (m0 : μ) {bs : List Bool} {r : Dumper (Emitter × Except Fail (WS σ) × μ)}
    (hrun : runCalls (emitTo (writerEnv h mem)) fuel0 (.opens :: ds.map .dumps ++ [.closes])
      { out := (s, (.ok (WS.init (s.encoding.getD .utf8) x), m0)) } = .ok (bs, r)) (hok : ∀ b ∈ bs, b = true) :
    ∃ st, r.out.2.1 = .ok st ∧
      ∀ (room : Nat → Bool) (o : Oracle) (n : Int) (f fuel m : Nat), NoFail o → st.trace.flatten.length < maxInt →
        st.trace.flatten.length + 3 < f → 4 * st.trace.flatten.length + 7 < fuel → 16 * st.trace.flatten.length + 28 < m →
        2 ≤ n → n ≤ maxInt → (∀ es, DumpedDocs ds es → (∀ k, Deep k es → (k : Int) < n) ∧ ∀ k, k < es.length → room k = true) →
        ∃ ds' p, loadBytes room o n f fuel m none st.trace.flatten (ds.length + 1) = .ok (ds'.map .doc ++ [.doc Doc.empty], p) ∧
          List.Forall₂ SameDoc ds ds' := by
  obtain ⟨es, hes, _⟩ := C51_whole_stream fuel0 ds 0 (fun d hd => ⟨(hds d hd).graph, (hds d hd).root, hfuel0 d hd⟩)
  have hfeed := calls_feed _ (fun d hd => ⟨(hds d hd).graph, (hds d hd).root, hfuel0 d hd⟩) hes hrun hok
  obtain ⟨_, ws, m', hout, hw⟩ := feed_written hfeed
  refine ⟨ws, by rw [hout], ?_⟩
  intro room o n f fuel m ho hlen hf hfuel hm hn2 hn3 hmore
  obtain ⟨hdeep, hroom⟩ := hmore es hes
  have hread := dumped_readable hes hds s.canonical hfirst
  obtain ⟨_, hb⟩ := C50_bytes_partial hs hread
  obtain ⟨b, st, k1, k2⟩ := hb none (es ++ [.streamEnd]) rfl h I hI x hx
  have henc : (s.encoding.or none).getD .utf8 = s.encoding.getD .utf8 := by cases s.encoding <;> rfl
  rw [henc, hw] at k1
  cases k1
  have hdeep' : ∀ k, Deep k (.streamStart none :: es ++ [.streamEnd]) → (k : Int) < n := by
    rintro k ⟨p, hp, hk⟩
    have h0 : (0 : Int) < n := by omega
    rcases List.eq_nil_or_concat p with rfl | ⟨p', e, rfl⟩
    · simp only [level] at hk; omega
    rw [List.concat_eq_append] at hp hk
    cases p' with
    | nil =>
      rw [List.cons_append] at hp
      obtain ⟨t, ht⟩ := hp
      injection ht with ht _
      subst ht
      simp only [List.nil_append, level] at hk
      omega
    | cons y p' =>
      obtain ⟨t, ht⟩ := hp
      rw [List.cons_append, List.cons_append, List.cons_append, List.cons.injEq] at ht
      obtain ⟨rfl, ht⟩ := ht
      rw [List.cons_append] at hk
      simp only [level] at hk
      rcases List.eq_nil_or_concat t with rfl | ⟨t', e', rfl⟩
      · rw [List.append_nil] at ht
        obtain ⟨rfl, h2⟩ := List.append_inj' ht rfl
        injection h2 with h2
        subst h2
        have hl : ∀ u : List EvData, level (u ++ [.streamEnd]) = level u := by
          intro u
          induction u with
          | nil => rfl
          | cons e u ih => cases e <;> simp only [List.cons_append, level, ih]
        rw [hl] at hk
        exact hdeep k ⟨_, List.prefix_refl _, hk⟩
      · rw [List.concat_eq_append, ← List.append_assoc] at ht
        obtain ⟨h1, _⟩ := List.append_inj' ht rfl
        exact hdeep k ⟨_, ⟨t', h1⟩, hk⟩
  obtain ⟨evs', p, q1, _, q3, q4⟩ := k2 rfl o n f fuel ho hlen hf hfuel hn2 hn3 hdeep'
  rw [List.forall₂_map_right_iff] at q4
  rw [List.cons_append] at q4 q1
  generalize hlist : evs' = l at q4
  cases q4 with
  | @cons _ se _ t a1 a2 =>
    obtain ⟨b1, b2, rfl, a3, a4⟩ := forall2_split a2
    cases a4 with
    | @cons _ ee _ _ a5 a6 =>
      cases a6
      subst hlist
      obtain ⟨wss, rfl, a7⟩ := alike_docs hes (List.forall₂_map_right_iff.mpr a3)
      have hse : ∃ e, se.data = .streamStart e := by
        generalize se.data = z at a1
        cases a1
        exact ⟨_, rfl⟩
      have hee : ee.data = .streamEnd := by
        generalize ee.data = z at a5
        cases a5
        rfl
      have hlen2 : (EvData.streamStart none :: (es ++ [EvData.streamEnd])).length = (se :: (wss.flatten ++ [ee])).length := by
        have := a3.length_eq
        simp [this]
      rw [hlen2] at q1
      have hdoc : ∀ w ∈ wss, DocEvs w := fun w hw => by
        obtain ⟨_, _, h, _⟩ := forall2_right a7 hw
        exact h
      have hshort : ∀ w ∈ wss, w.length ≤ es.length := by
        intro w hw
        rw [a3.length_eq]
        exact (List.sublist_flatten_of_mem hw).length_le
      obtain ⟨ds', pr, m1, m2⟩ := load_known (m := m) room o n none _ (Nat.lt_trans hlen (by decide)) hf hfuel hm q1 q3 hse hee hdoc
        (fun w hw k hk => hroom k (by have := hshort w hw; omega)) 0
      have hdl : ds.length = wss.length := a7.length_eq
      refine ⟨ds', pr, by rw [hdl]; exact m1, ?_⟩
      exact forall2_chain a7 m2 fun hd hr => hd.2 _ hr

/-- **C61, the calls succeed.** If memory is not exhausted and the write handler never fails, every call succeeds: opening, dumping each of the
documents, closing. -/
theorem C61_dump_succeeds {s : Emitter} (hs : Fresh s) {ds : List Doc} (hds : ∀ d ∈ ds, Dumpable d)
    (hfirst : s.canonical = false → ∀ d, ds.head? = some d → ¬ Invisible d)
    {fuel0 : Nat} (hfuel0 : ∀ d ∈ ds, d.nodes.length < fuel0) (h : Handler σ) (hh : ∀ s b, ∃ s', h s b = .ok (true, s')) (x : σ)
    (mem : μ → Bool × μ) (hmem : ∀ m, (mem m).1 = true) (m0 : μ) :
    ∃ bs r, runCalls (emitTo (writerEnv h mem)) fuel0 (.opens :: ds.map .dumps ++ [.closes])
      { out := (s, (.ok (WS.init (s.encoding.getD .utf8) x), m0)) } = .ok (bs, r) ∧ ∀ b ∈ bs, b = true := by
  obtain ⟨es, hes, _⟩ := C51_whole_stream fuel0 ds 0 (fun d hd => ⟨(hds d hd).graph, (hds d hd).root, hfuel0 d hd⟩)
  have hread := dumped_readable hes hds s.canonical hfirst
  obtain ⟨hval, hb⟩ := C50_bytes_partial hs hread
  have hI : Safe h (fun _ => True) := fun s b _ => by
    obtain ⟨s', hs'⟩ := hh s b
    exact ⟨true, s', hs', trivial⟩
  obtain ⟨b, st, k1, _⟩ := hb none (es ++ [.streamEnd]) rfl h _ hI x trivial
  have henc : (s.encoding.or none).getD .utf8 = s.encoding.getD .utf8 := by cases s.encoding <;> rfl
  rw [henc] at k1
  cases runOps_true hh k1
  obtain ⟨m', hf⟩ := written_feed (m := m0) hmem hval k1
  exact feed_calls _ (fun d hd => ⟨(hds d hd).graph, (hds d hd).root, hfuel0 d hd⟩) hes hf

/-- **C61, documents with fewer nodes than the nesting limit.** No condition on the depth is needed. -/
theorem C61_small_documents {ds : List Doc} {n : Int} (hn : 0 < n) (hds : ∀ d ∈ ds, (d.nodes.length : Int) < n) {es : List EvData} (h : DumpedDocs ds es) :
    ∀ k, Deep k es → (k : Int) < n := by
  intro k hk
  by_cases h0 : k = 0
  · omega
  · obtain ⟨d, hd, hl⟩ := (dumped_deep h).2 k (by omega) hk
    have := hds d hd
    omega

/-! ### A document that meets the conditions -/

theorem cyclic_dumpable : Dumpable cyclic := by
  have hmem : ∀ {i : Nat} {nd : Node}, cyclic.nodes[i - 1]? = some nd → nd ∈ cyclic.nodes := fun h => List.mem_of_getElem? h
  refine ⟨?_, by simp [cyclic], by simp [cyclic], by simp [cyclic], by simp [cyclic, GoodTags], by simp [cyclic], ?_, ?_⟩
  · unfold GraphOk cyclic
    simp [Node.children]
  · intro i nd _ h
    have hn : ∀ nd ∈ cyclic.nodes, nd.tag ≠ [] ∧ (∀ c ∈ nd.tag, Storable c ∧ c ≠ 0) ∧
        ∀ d ∈ predeclared, d.pfx = nd.tag.take d.pfx.length → ∀ c ∈ nd.tag.drop d.pfx.length, c ≠ 0x2C ∧ c ≠ 0x5B ∧ c ≠ 0x5D := by decide
    obtain ⟨h1, h2, h3⟩ := hn nd (hmem h)
    refine ⟨h1, ?_⟩
    rintro x ⟨⟩
    refine ⟨h2, ?_⟩
    intro d hd r hr c hc
    exact h3 d hd (by rw [hr, List.take_left]) c (by rw [hr, List.drop_left]; exact hc)
  · intro i nd v st _ h hd
    have hn : ∀ nd ∈ cyclic.nodes, ∀ v st, nd.data = .scalar v st → (∀ c ∈ v, c ≤ 0x10FFFF ∧ ¬ (0xD800 ≤ c ∧ c ≤ 0xDFFF)) ∧ st ≠ .folded := by
      intro nd hnd v st hd
      simp only [cyclic, List.mem_cons, List.not_mem_nil, or_false] at hnd
      rcases hnd with rfl | rfl | rfl | rfl
      · cases hd
      all_goals
        injection hd with h1 h2
        subst h1 h2
        exact ⟨by decide, by decide⟩
    obtain ⟨h1, h2⟩ := hn nd (hmem h) v st hd
    exact ⟨h1, fun h => absurd h h2⟩

theorem cyclic_visible : ¬ Invisible cyclic := by
  rintro ⟨_, _, _, nd, st, h1, _, h2, _⟩
  cases h1
  cases h2

/-- A mapping that contains itself, and one of its values as a key: the document is dumped twice and read back in UTF-16. -/
example : ∃ bs r st, runCalls (emitTo (writerEnv okHandler fun (m : Unit) => (true, m))) 5 [.opens, .dumps cyclic, .dumps cyclic, .closes]
      { out := ({ encoding := some .utf16le }, (.ok (WS.init .utf16le ()), ())) } = .ok (bs, r) ∧ (∀ b ∈ bs, b = true) ∧ r.out.2.1 = .ok st ∧
      (st.trace.flatten.length < 1000 → ∃ ds' p, loadBytes (fun _ => true) (fun _ => some 1) 1000 2000 9000 20000 none st.trace.flatten 3 =
        .ok (ds'.map .doc ++ [.doc Doc.empty], p) ∧ List.Forall₂ SameDoc [cyclic, cyclic] ds') := by
  have hs : Fresh { encoding := some .utf16le } := ⟨some .utf16le, false, 0, 0, false, none, rfl⟩
  have hds : ∀ d ∈ [cyclic, cyclic], Dumpable d := by
    intro d hd
    simp only [List.mem_cons, List.not_mem_nil, or_false, or_self] at hd
    subst hd
    exact cyclic_dumpable
  have hlen : ∀ d ∈ [cyclic, cyclic], d.nodes.length < 5 := by
    intro d hd
    simp only [List.mem_cons, List.not_mem_nil, or_false, or_self] at hd
    subst hd
    decide
  have hvis : Emitter.canonical { encoding := some .utf16le } = false → ∀ d, [cyclic, cyclic].head? = some d → ¬ Invisible d := by
    rintro _ d ⟨⟩
    exact cyclic_visible
  obtain ⟨bs, r, h1, h2⟩ := C61_dump_succeeds hs hds hvis hlen okHandler (fun s _ => ⟨s, rfl⟩) () (fun (m : Unit) => (true, m)) (fun _ => rfl) ()
  obtain ⟨st, h3, h4⟩ := C61_dump_then_load hs hds hvis hlen okHandler _ okHandler_safe () trivial (fun (m : Unit) => (true, m)) () h1 h2
  refine ⟨bs, r, st, h1, h2, h3, fun hl => ?_⟩
  have hm : maxInt = 2147483647 := rfl
  exact h4 _ _ 1000 2000 9000 20000 (fun _ h => nomatch h) (by omega) (by omega) (by omega) (by omega) (by omega) (by omega)
    (fun es hes => ⟨C61_small_documents (by decide) (fun d hd => by have := hlen d hd; omega) hes, fun _ _ => rfl⟩)

end LibYaml
