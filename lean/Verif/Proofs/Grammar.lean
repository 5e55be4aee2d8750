import Verif.Spec.Events

/-! A pushdown automaton for the event grammar, and its equivalence with the grammar. -/

namespace LibYaml

open Spec

/-- What is open. `docNode`: a document waiting for its root; `docEnd`: a document whose root is complete; `seq`: an open
sequence; `mapKey`, `mapVal`: an open mapping waiting for a key (or its end), for a value. -/
inductive Frame | docNode | docEnd | seq | mapKey | mapVal
  deriving DecidableEq, Repr

/-- Configurations of the automaton. -/
inductive Cfg
  | start
  | docs
  | doc (fs : List Frame)
  | ended
  deriving DecidableEq, Repr

/-- The frame after one complete node. `none`: no node can occur here. -/
def Frame.advance : Frame → Option Frame
  | .docNode => some .docEnd
  | .docEnd => none
  | .seq => some .seq
  | .mapKey => some .mapVal
  | .mapVal => some .mapKey

/-- One event. -/
def Cfg.step : Cfg → EvData → Option Cfg
  | .start, .streamStart _ => some .docs
  | .docs, .documentStart .. => some (.doc [.docNode])
  | .docs, .streamEnd => some .ended
  | .doc (f :: K), .alias _ => f.advance.map fun g => .doc (g :: K)
  | .doc (f :: K), .scalar .. => f.advance.map fun g => .doc (g :: K)
  | .doc (f :: K), .sequenceStart .. => f.advance.map fun g => .doc (.seq :: g :: K)
  | .doc (f :: K), .mappingStart .. => f.advance.map fun g => .doc (.mapKey :: g :: K)
  | .doc (.seq :: K), .sequenceEnd => some (.doc K)
  | .doc (.mapKey :: K), .mappingEnd => some (.doc K)
  | .doc [.docEnd], .documentEnd _ => some .docs
  | _, _ => none

/-- A word. -/
def Cfg.run : Cfg → List EvData → Option Cfg
  | c, [] => some c
  | c, e :: w =>
    match c.step e with
    | none => none
    | some c => c.run w

theorem Cfg.run_append (c : Cfg) (v w : List EvData) : c.run (v ++ w) = (c.run v).bind fun d => d.run w := by
  induction v generalizing c with
  | nil => rfl
  | cons e v ih =>
    simp only [List.cons_append, Cfg.run]
    split
    · rfl
    · exact ih _

/-- The words that complete a frame. -/
inductive LFrame : Frame → List EvData → Prop
  | docNode {n} (j) : G .node n → LFrame .docNode (n ++ [.documentEnd j])
  | docEnd (j) : LFrame .docEnd [.documentEnd j]
  | seq {w} : G .nodes w → LFrame .seq (w ++ [.sequenceEnd])
  | mapKey {w} : G .pairs w → LFrame .mapKey (w ++ [.mappingEnd])
  | mapVal {v w} : G .node v → G .pairs w → LFrame .mapVal (v ++ (w ++ [.mappingEnd]))

/-- The words that complete a stack of frames (only the last frame is a document). -/
inductive LFrames : List Frame → List EvData → Prop
  | one {f w} : (f = .docNode ∨ f = .docEnd) → LFrame f w → LFrames [f] w
  | cons {f K v w} : f ≠ .docNode → f ≠ .docEnd → LFrame f v → LFrames K w → LFrames (f :: K) (v ++ w)

/-- The words that complete a configuration. -/
inductive LCfg : Cfg → List EvData → Prop
  | start {w} : GStream w → LCfg .start w
  | docs {w} : GDocs w → LCfg .docs (w ++ [.streamEnd])
  | doc {fs v w} : LFrames fs v → GDocs w → LCfg (.doc fs) (v ++ (w ++ [.streamEnd]))
  | ended : LCfg .ended []

theorem lframe_node {f g : Frame} {n w : List EvData} (h : f.advance = some g) (hn : G .node n) (hw : LFrame g w) :
    LFrame f (n ++ w) := by
  cases f with
  | docNode =>
    simp only [Frame.advance] at h; injection h with h; subst h
    cases hw; exact .docNode _ hn
  | docEnd => cases h
  | seq =>
    simp only [Frame.advance] at h; injection h with h; subst h
    cases hw with
    | seq hs => rw [← List.append_assoc]; exact .seq (.nodesCons hn hs)
  | mapKey =>
    simp only [Frame.advance] at h; injection h with h; subst h
    cases hw with
    | mapVal hv hp =>
      have := LFrame.mapKey (G.pairsCons hn hv hp)
      simpa using this
  | mapVal =>
    simp only [Frame.advance] at h; injection h with h; subst h
    cases hw with
    | mapKey hp => exact .mapVal hn hp

theorem advance_doc {f g : Frame} (h : f.advance = some g) : (f = .docNode ∧ g = .docEnd) ∨
    (f ≠ .docNode ∧ f ≠ .docEnd ∧ g ≠ .docNode ∧ g ≠ .docEnd) := by
  cases f <;> simp [Frame.advance] at h <;> subst h <;> simp

theorem lframes_node {f g : Frame} {K : List Frame} {n w : List EvData} (h : f.advance = some g) (hn : G .node n)
    (hw : LFrames (g :: K) w) : LFrames (f :: K) (n ++ w) := by
  have ha := advance_doc h
  cases hw with
  | one hd hf =>
    rcases ha with ⟨rfl, rfl⟩ | ⟨_, _, h3, h4⟩
    · exact .one (Or.inl rfl) (lframe_node h hn hf)
    · rcases hd with rfl | rfl
      · exact absurd rfl h3
      · exact absurd rfl h4
  | cons h1 h2 hf hK =>
    rcases ha with ⟨rfl, rfl⟩ | ⟨h3, h4, _, _⟩
    · exact absurd rfl h2
    · rw [← List.append_assoc]
      exact .cons h3 h4 (lframe_node h hn hf) hK

theorem lcfg_node {f g : Frame} {K : List Frame} {n w : List EvData} (h : f.advance = some g) (hn : G .node n)
    (hw : LCfg (.doc (g :: K)) w) : LCfg (.doc (f :: K)) (n ++ w) := by
  cases hw with
  | doc hf hd => rw [← List.append_assoc]; exact .doc (lframes_node h hn hf) hd

theorem lcfg_pop {f : Frame} {K : List Frame} {w : List EvData} (h1 : f ≠ .docNode) (h2 : f ≠ .docEnd)
    (hw : LCfg (.doc (f :: K)) w) : ∃ v w', w = v ++ w' ∧ LFrame f v ∧ LCfg (.doc K) w' := by
  cases hw with
  | doc hf hd =>
    cases hf with
    | one hor _ => rcases hor with rfl | rfl <;> contradiction
    | cons _ _ hf hK => exact ⟨_, _, List.append_assoc _ _ _, hf, .doc hK hd⟩

/-- Soundness of one step. -/
theorem lcfg_step {c d : Cfg} {e : EvData} {w : List EvData} (h : c.step e = some d) (hw : LCfg d w) : LCfg c (e :: w) := by
  match c, e with
  | .start, .streamStart enc =>
    simp only [Cfg.step] at h; injection h with h; subst h
    cases hw with
    | docs hd => exact .start ⟨enc, _, hd, rfl⟩
  | .docs, .documentStart v ts i =>
    simp only [Cfg.step] at h; injection h with h; subst h
    cases hw with
    | doc hf hd =>
      cases hf with
      | one _ hf =>
        cases hf with
        | docNode j hn =>
          rename_i n
          have := LCfg.docs (GDocs.cons ⟨v, ts, i, n, j, hn, rfl⟩ hd)
          simpa using this
      | cons h1 _ _ _ => exact absurd rfl h1
  | .docs, .streamEnd =>
    simp only [Cfg.step] at h; injection h with h; subst h
    cases hw
    exact LCfg.docs .nil
  | .doc (f :: K), .alias a =>
    simp only [Cfg.step, Option.map_eq_some_iff] at h
    obtain ⟨g, hg, rfl⟩ := h
    exact lcfg_node hg (.alias a) hw
  | .doc (f :: K), .scalar a t v p q s =>
    simp only [Cfg.step, Option.map_eq_some_iff] at h
    obtain ⟨g, hg, rfl⟩ := h
    exact lcfg_node hg (.scalar a t v p q s) hw
  | .doc (f :: K), .sequenceStart a t i s =>
    simp only [Cfg.step, Option.map_eq_some_iff] at h
    obtain ⟨g, hg, rfl⟩ := h
    obtain ⟨v, w', rfl, hv, hw'⟩ := lcfg_pop (by simp) (by simp) hw
    cases hv with
    | seq hs => exact lcfg_node hg (.seq a t i s hs) hw'
  | .doc (f :: K), .mappingStart a t i s =>
    simp only [Cfg.step, Option.map_eq_some_iff] at h
    obtain ⟨g, hg, rfl⟩ := h
    obtain ⟨v, w', rfl, hv, hw'⟩ := lcfg_pop (by simp) (by simp) hw
    cases hv with
    | mapKey hs => exact lcfg_node hg (.map a t i s hs) hw'
  | .doc (.seq :: K), .sequenceEnd =>
    simp only [Cfg.step] at h; injection h with h; subst h
    cases hw with
    | doc hf hd =>
      have := LCfg.doc (LFrames.cons (by simp) (by simp) (LFrame.seq .nodesNil) hf) hd
      simpa using this
  | .doc (.mapKey :: K), .mappingEnd =>
    simp only [Cfg.step] at h; injection h with h; subst h
    cases hw with
    | doc hf hd =>
      have := LCfg.doc (LFrames.cons (by simp) (by simp) (LFrame.mapKey .pairsNil) hf) hd
      simpa using this
  | .doc [.docEnd], .documentEnd j =>
    simp only [Cfg.step] at h; injection h with h; subst h
    cases hw with
    | docs hd => exact LCfg.doc (LFrames.one (Or.inr rfl) (.docEnd j)) hd

theorem lcfg_run {c d : Cfg} {v w : List EvData} (h : c.run v = some d) (hw : LCfg d w) : LCfg c (v ++ w) := by
  induction v generalizing c with
  | nil => simp only [Cfg.run] at h; injection h with h; subst h; exact hw
  | cons e v ih =>
    simp only [Cfg.run] at h
    split at h
    · cases h
    · rename_i c' hc
      exact lcfg_step hc (ih h)

/-! Completeness. -/

theorem run_sym {s : Sym} {n : List EvData} (h : G s n) : ∀ (f : Frame) (K : List Frame),
    match s with
    | .node => (Cfg.doc (f :: K)).run n = f.advance.map fun g => .doc (g :: K)
    | .nodes => (Cfg.doc (.seq :: K)).run n = some (.doc (.seq :: K))
    | .pairs => (Cfg.doc (.mapKey :: K)).run n = some (.doc (.mapKey :: K)) := by
  induction h with
  | alias a => intro f K; simp only [Cfg.run, Cfg.step]; cases f.advance <;> rfl
  | scalar => intro f K; simp only [Cfg.run, Cfg.step]; cases f.advance <;> rfl
  | seq a t i s hw ih =>
    intro f K
    simp only [List.cons_append, Cfg.run, Cfg.step]
    cases hf : f.advance with
    | none => rfl
    | some g =>
      simp only [Option.map_some]
      rw [Cfg.run_append, ih f (g :: K)]; rfl
  | map a t i s hw ih =>
    intro f K
    simp only [List.cons_append, Cfg.run, Cfg.step]
    cases hf : f.advance with
    | none => rfl
    | some g =>
      simp only [Option.map_some]
      rw [Cfg.run_append, ih f (g :: K)]; rfl
  | nodesNil => intro f K; rfl
  | nodesCons hv hw ihv ihw =>
    intro f K
    simp only
    rw [Cfg.run_append, ihv .seq K]
    exact ihw f K
  | pairsNil => intro f K; rfl
  | pairsCons hk hv hw ihk ihv ihw =>
    intro f K
    simp only
    rw [Cfg.run_append, ihk .mapKey K]
    simp only [Frame.advance, Option.map_some, Option.bind_some]
    rw [Cfg.run_append, ihv .mapVal K]
    exact ihw f K

theorem run_node {n : List EvData} (h : G .node n) (f : Frame) (K : List Frame) :
    (Cfg.doc (f :: K)).run n = f.advance.map fun g => .doc (g :: K) := run_sym h f K

theorem run_docs {w : List EvData} (h : GDocs w) : Cfg.docs.run w = some .docs := by
  induction h with
  | nil => rfl
  | cons hd hw ih =>
    obtain ⟨v, ts, i, n, j, hn, rfl⟩ := hd
    rw [Cfg.run_append]
    simp only [List.cons_append, Cfg.run, Cfg.step]
    rw [Cfg.run_append, run_node hn]
    simp only [Frame.advance, Option.map_some, Option.bind_some, Cfg.run, Cfg.step]
    exact ih

theorem run_stream {w : List EvData} (h : GStream w) : Cfg.start.run w = some .ended := by
  obtain ⟨enc, ds, hd, rfl⟩ := h
  simp only [List.cons_append, Cfg.run, Cfg.step]
  rw [Cfg.run_append, run_docs hd]
  rfl

/-- Configurations that occur: a document is at the bottom of the stack and only there. -/
inductive Cfg.Good : Cfg → Prop
  | start : Cfg.Good .start
  | docs : Cfg.Good .docs
  | ended : Cfg.Good .ended
  | bottom {f} : (f = .docNode ∨ f = .docEnd) → Cfg.Good (.doc [f])
  | push {f K} : f ≠ .docNode → f ≠ .docEnd → Cfg.Good (.doc K) → Cfg.Good (.doc (f :: K))

theorem Cfg.Good.advance {f g : Frame} {K : List Frame} (h : f.advance = some g) (hg : Cfg.Good (.doc (f :: K))) :
    Cfg.Good (.doc (g :: K)) := by
  have ha := advance_doc h
  cases hg with
  | bottom hor =>
    rcases ha with ⟨rfl, rfl⟩ | ⟨h1, h2, _, _⟩
    · exact .bottom (Or.inr rfl)
    · rcases hor with rfl | rfl <;> contradiction
  | push h1 h2 hK =>
    rcases ha with ⟨rfl, rfl⟩ | ⟨_, _, h3, h4⟩
    · contradiction
    · exact .push h3 h4 hK

theorem Cfg.Good.step {c d : Cfg} {e : EvData} (h : c.step e = some d) (hg : c.Good) : d.Good := by
  match c, e with
  | .start, .streamStart enc => simp only [Cfg.step] at h; injection h with h; subst h; exact .docs
  | .docs, .documentStart v ts i => simp only [Cfg.step] at h; injection h with h; subst h; exact .bottom (Or.inl rfl)
  | .docs, .streamEnd => simp only [Cfg.step] at h; injection h with h; subst h; exact .ended
  | .doc (f :: K), .alias a =>
    simp only [Cfg.step, Option.map_eq_some_iff] at h
    obtain ⟨g, hg', rfl⟩ := h
    exact hg.advance hg'
  | .doc (f :: K), .scalar a t v p q s =>
    simp only [Cfg.step, Option.map_eq_some_iff] at h
    obtain ⟨g, hg', rfl⟩ := h
    exact hg.advance hg'
  | .doc (f :: K), .sequenceStart a t i s =>
    simp only [Cfg.step, Option.map_eq_some_iff] at h
    obtain ⟨g, hg', rfl⟩ := h
    exact .push (by simp) (by simp) (hg.advance hg')
  | .doc (f :: K), .mappingStart a t i s =>
    simp only [Cfg.step, Option.map_eq_some_iff] at h
    obtain ⟨g, hg', rfl⟩ := h
    exact .push (by simp) (by simp) (hg.advance hg')
  | .doc (.seq :: K), .sequenceEnd =>
    simp only [Cfg.step] at h; injection h with h; subst h
    cases hg with
    | bottom hor => rcases hor with h | h <;> cases h
    | push _ _ hK => exact hK
  | .doc (.mapKey :: K), .mappingEnd =>
    simp only [Cfg.step] at h; injection h with h; subst h
    cases hg with
    | bottom hor => rcases hor with h | h <;> cases h
    | push _ _ hK => exact hK
  | .doc [.docEnd], .documentEnd j => simp only [Cfg.step] at h; injection h with h; subst h; exact .docs

theorem Cfg.Good.run {c d : Cfg} {w : List EvData} (h : c.run w = some d) (hg : c.Good) : d.Good := by
  induction w generalizing c with
  | nil => simp only [Cfg.run] at h; injection h with h; subst h; exact hg
  | cons e w ih =>
    simp only [Cfg.run] at h
    split at h
    · cases h
    · rename_i c' hc; exact ih h (hg.step hc)

/-- Every frame can be completed. -/
theorem lframe_exists (f : Frame) : ∃ w, LFrame f w := by
  have hn : G .node [.alias []] := .alias []
  cases f with
  | docNode => exact ⟨_, .docNode true hn⟩
  | docEnd => exact ⟨_, .docEnd true⟩
  | seq => exact ⟨_, .seq .nodesNil⟩
  | mapKey => exact ⟨_, .mapKey .pairsNil⟩
  | mapVal => exact ⟨_, .mapVal hn .pairsNil⟩

theorem lcfg_exists {c : Cfg} (h : c.Good) : ∃ w, LCfg c w := by
  induction h with
  | start => exact ⟨_, .start ⟨none, [], .nil, rfl⟩⟩
  | docs => exact ⟨_, .docs .nil⟩
  | ended => exact ⟨_, .ended⟩
  | bottom hor =>
    rename_i f
    obtain ⟨w, hw⟩ := lframe_exists f
    exact ⟨_, .doc (.one hor hw) .nil⟩
  | push h1 h2 hK ih =>
    rename_i f K
    obtain ⟨w, hw⟩ := lframe_exists f
    obtain ⟨v, hv⟩ := ih
    cases hv with
    | doc hf hd => exact ⟨_, .doc (.cons h1 h2 hw hf) hd⟩

/-- The automaton accepts exactly the streams. -/
theorem run_ended_iff (w : List EvData) : Cfg.start.run w = some .ended ↔ GStream w := by
  constructor
  · intro h
    have := lcfg_run h .ended
    rw [List.append_nil] at this
    cases this with
    | start h => exact h
  · exact run_stream

/-- The automaton does not get stuck exactly on the prefixes of streams. -/
theorem run_some_iff (v : List EvData) : (∃ c, Cfg.start.run v = some c) ↔ ∃ w, GStream w ∧ v <+: w := by
  constructor
  · rintro ⟨c, h⟩
    obtain ⟨w, hw⟩ := lcfg_exists (Cfg.Good.run h .start)
    have := lcfg_run h hw
    cases this with
    | start hs => exact ⟨v ++ w, hs, ⟨w, rfl⟩⟩
  · rintro ⟨w, hw, r, rfl⟩
    have := run_stream hw
    rw [Cfg.run_append] at this
    cases hv : Cfg.start.run v with
    | none => rw [hv] at this; cases this
    | some c => exact ⟨c, rfl⟩

end LibYaml
