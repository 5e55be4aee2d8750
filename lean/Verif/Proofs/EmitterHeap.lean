import Verif.Proofs.HeapQueue
import Verif.Model.EmitterHeap
import Verif.Proofs.EmitterFrame
import Verif.Proofs.ParserHeapDirs
import Verif.Props.Document
import Verif.Spec.EmitterHeap

/-!
# The emitter on the heap: helper lemmas

`ERel W A base P m v Q`: started from a heap emitter and a value emitter related by `P`, the program `m` on the heap ends without undefined
behaviour if `v` does. If it succeeds so does `v`, with the same output, and the results are related by `Q`. If it fails, the emitter object still
owns everything that is left, and `v` fails in the same way; it fails for lack of memory only if memory is lacking.
-/

namespace LibYaml

open Spec

variable {ω α α' β β' : Type}

/-! ### Operations -/

theorem execOps_cons {σ : Type} {E : Env σ} {op : EOp} {s : Emitter} {l : List (EOp × Emitter)} {w : σ} :
    execOps E ((op, s) :: l) w = match E op w with
      | (true, x) => execOps E l x
      | (false, x) => (some s, x) := rfl

theorem execOps_append {σ : Type} {E : Env σ} {l l' : List (EOp × Emitter)} {w w' : σ} (h : execOps E l w = (none, w')) :
    execOps E (l ++ l') w = execOps E l' w' := by
  induction l generalizing w with
  | nil => cases h; rfl
  | cons o l ih =>
    obtain ⟨op, s⟩ := o
    rw [List.cons_append]
    rw [execOps_cons] at h ⊢
    cases hE : E op w with
    | mk b w1 =>
      rw [hE] at h
      cases b with
      | false => cases h
      | true => exact ih h

theorem execOps_stop {σ : Type} {E : Env σ} {l l' : List (EOp × Emitter)} {w w' : σ} {s : Emitter} (h : execOps E l w = (some s, w')) :
    execOps E (l ++ l') w = (some s, w') := by
  induction l generalizing w with
  | nil => cases h
  | cons o l ih =>
    obtain ⟨op, s⟩ := o
    rw [List.cons_append]
    rw [execOps_cons] at h ⊢
    cases hE : E op w with
    | mk b w1 =>
      rw [hE] at h
      cases b with
      | false => exact h
      | true => exact ih h

theorem execOps_hold {σ : Type} {E : Env σ} {l : List (EOp × Emitter)} {w : σ} {x : Held} :
    execOps E (holdOps l x) w = ((execOps E l w).1.map fun s => s.hold x, (execOps E l w).2) := by
  induction l generalizing w with
  | nil => rfl
  | cons o l ih =>
    obtain ⟨op, s⟩ := o
    show execOps E ((op, s.hold x) :: holdOps l x) w = _
    rw [execOps_cons, execOps_cons]
    cases hE : E op w with
    | mk b w1 =>
      cases b with
      | false => rfl
      | true => exact ih

/-- An allocation among the operations fails; those before it have been performed. -/
def NoMem (W : OutH ω) (ops : List (EOp × Emitter)) (w : ω) (s : Emitter) (w' : ω) : Prop :=
  ∃ l l', ops = l ++ (.alloc, s) :: l' ∧ execOps (outEnv W) l w = (none, w')

/-! ### The emitter object -/

/-- The lists that live in the heap. -/
def Emitter.held (s : Emitter) : Held := ⟨s.states, s.events, s.indents, s.tags⟩

/-- An event in the queue. -/
abbrev QEv := EvData × HEvent × Blocks

/-- The stack of tag directives; `T` are the blocks of their strings. -/
def DirStkE (ds : List TagDir) (T : Blocks) (s : HStk) (b : Blocks) : Prop :=
  ∃ a n vs, s = ⟨some a, vs.length⟩ ∧ (vs ≠ [] ∨ n ≠ 0) ∧ DirsAt (ds.map dirText) vs T ∧ b = [(a, stkObj vs n)]

/-- A buffer -/
def BufAt (p : Ptr) (b : Blocks) : Prop := ∃ a, p = some a ∧ b = [(a, Obj.bytes [])]

/-- An event in the queue can be read. -/
def QOk (x : QEv) : Prop := EventAt x.1 x.2.1 x.2.2 ∧ Legible x.1

/-- The blocks of the events. -/
def qBlocks (q : List QEv) : Blocks := q.flatMap fun x => x.2.2

def LDir (d : TagDir) : Prop := CText d.handle ∧ CText d.pfx

/-- The heap emitter, the value emitter, and the blocks that the former owns: `q` are the events in the queue, `T` the strings of the tag directives. -/
def EAt (q : List QEv) (T : Blocks) (p : HEm ω) (s : Emitter) (b : Blocks) : Prop :=
  ∃ x1 x2 x3 x4 x5 x6, s = p.val.hold s.held ∧ s.events = q.map Prod.fst ∧ (∀ x ∈ q, QOk x) ∧ (∀ d ∈ s.tags, LDir d) ∧
    StkAt s.states p.states x1 ∧ QueAt (q.map fun x => x.2.1) p.events x2 ∧ StkAt s.indents p.indents x3 ∧ DirStkE s.tags T p.tags x4 ∧
    BufAt p.buffer x5 ∧ BufAt p.rawBuffer x6 ∧ b.Perm (qBlocks q ++ (T ++ (x1 ++ (x2 ++ (x3 ++ (x4 ++ (x5 ++ x6)))))))

/-- The same, if the events do not matter. -/
def EOwn (p : HEm ω) (s : Emitter) (b : Blocks) : Prop := ∃ q T, EAt q T p s b

/-- A stack cannot grow further. -/
def OverStack (s : Emitter) : Prop := stackLimit EState s.states.length ∨ stackLimit Int s.indents.length ∨ stackLimit (Ptr × Ptr) s.tags.length

/-- With a condition on the object. -/
def EHas (q : List QEv) (T : Blocks) (I : HEm ω → Prop) (p : HEm ω) (s : Emitter) (b : Blocks) : Prop := EAt q T p s b ∧ I p

/-- How a failure looks like for the value emitter. -/
def Missed (W : OutH ω) (A : Prop) (w : ω) (v : Res α) (s : Emitter) (w' : ω) : EErr → Prop
  | .emitter e => v.val = .error e ∧ v.st = s ∧ execOps (outEnv W) v.ops w = (none, w')
  | .writer => execOps (outEnv W) v.ops w = (some s, w')
  | .memory => NoMem W v.ops w s w' ∧ (A → OverStack s)

/-- What a program on the heap does in comparison with one on values. -/
def EmPost (W : OutH ω) (A : Prop) (base : Nat → Option Obj) (fr : Blocks) (Q : α' → α → HEm ω → Emitter → Blocks → Prop) (w : ω) (v : Res α)
    (r : Except EErr α' × HEm ω) (h : Heap) : Prop :=
  match r.1 with
  | .ok a' => ∃ a b, v.val = .ok a ∧ execOps (outEnv W) v.ops w = (none, r.2.world) ∧ Q a' a r.2 v.st b ∧ Ext A base (b ++ fr) h
  | .error e => ∃ s b, EOwn r.2 s b ∧ Ext A base (b ++ fr) h ∧ Missed W A w v s r.2.world e

def ERel (W : OutH ω) (A : Prop) (base : Nat → Option Obj) (P : HEm ω → Emitter → Blocks → Prop) (m : HE ω α') (v : EM α)
    (Q : α' → α → HEm ω → Emitter → Blocks → Prop) : Prop :=
  ∀ p s b fr h, P p s b → Ext A base (b ++ fr) h → (v s).val ≠ .error .ub → hw (m p) (EmPost W A base fr Q p.world (v s)) h

/-! ### Rules -/

theorem em_bind (m : EM α) (k : α → EM β) (s : Emitter) : (m >>= k) s = match (m s).val with
    | .ok a => ⟨(m s).ops ++ (k a (m s).st).ops, (k a (m s).st).val, (k a (m s).st).st⟩
    | .error e => ⟨(m s).ops, .error e, (m s).st⟩ := rfl

theorem hw_he_bind {m : HE ω α} {k : α → HE ω β} {p : HEm ω} {Q : Except EErr β × HEm ω → Heap → Prop} {h : Heap} :
    hw ((m >>= k) p) Q h ↔ hw (m p) (fun r h' => match r.1 with
      | .error e => Q (.error e, r.2) h'
      | .ok a => hw (k a r.2) Q h') h := by
  show hw (HE.bind m k p) Q h ↔ _
  unfold hw HE.bind
  cases m p h with
  | error e => exact Iff.rfl
  | ok x =>
    obtain ⟨⟨r, q⟩, h'⟩ := x
    cases r <;> exact Iff.rfl

section
variable {W : OutH ω} {A : Prop} {base : Nat → Option Obj} {P P' : HEm ω → Emitter → Blocks → Prop}

theorem erel_bind {m : HE ω α'} {v : EM α} {k' : α' → HE ω β'} {k : α → EM β} {R : α' → α → HEm ω → Emitter → Blocks → Prop}
    {Q : β' → β → HEm ω → Emitter → Blocks → Prop} (h1 : ERel W A base P m v R) (h2 : ∀ a' a, ERel W A base (R a' a) (k' a') (k a) Q) :
    ERel W A base P (m >>= k') (v >>= k) Q := by
  intro p s b fr h hp e hu
  rw [hw_he_bind]
  rw [em_bind] at hu
  have hu1 : (v s).val ≠ .error .ub := fun hx => by rw [hx] at hu; exact hu rfl
  refine hw_mono (h1 p s b fr h hp e hu1) fun r h' hr => ?_
  obtain ⟨r, q⟩ := r
  cases r with
  | error e' =>
    obtain ⟨s', b', j1, j2, j3⟩ := hr
    refine ⟨s', b', j1, j2, ?_⟩
    rw [em_bind]
    cases e' with
    | emitter x =>
      obtain ⟨j3, j4, j5⟩ := j3
      rw [j3]
      exact ⟨rfl, j4, j5⟩
    | writer =>
      simp only [Missed] at j3 ⊢
      cases hv : (v s).val with
      | error e => exact j3
      | ok a => exact execOps_stop j3
    | memory =>
      obtain ⟨⟨l, l', j3, j4⟩, j5⟩ := j3
      cases hv : (v s).val with
      | error e => exact ⟨⟨l, l', j3, j4⟩, j5⟩
      | ok a => exact ⟨⟨l, l' ++ (k a (v s).st).ops, by simp [j3], j4⟩, j5⟩
  | ok a' =>
    obtain ⟨a, b', hv, j1, j2, j3⟩ := hr
    rw [hv] at hu
    refine hw_mono (h2 a' a q (v s).st b' fr h' j2 j3 hu) fun r h'' hr => ?_
    rw [em_bind, hv]
    obtain ⟨r, q'⟩ := r
    cases r with
    | ok c =>
      obtain ⟨d, b'', k1, k2, k3⟩ := hr
      exact ⟨d, b'', k1, (execOps_append j1).trans k2, k3⟩
    | error e' =>
      obtain ⟨s', b'', k1, k2, k3⟩ := hr
      refine ⟨s', b'', k1, k2, ?_⟩
      cases e' with
      | emitter x => exact ⟨k3.1, k3.2.1, (execOps_append j1).trans k3.2.2⟩
      | writer => exact (execOps_append j1).trans k3
      | memory =>
        obtain ⟨⟨l, l', k3, k4⟩, k5⟩ := k3
        exact ⟨⟨(v s).ops ++ l, l', by simp [k3], (execOps_append j1).trans k4⟩, k5⟩

theorem erel_pre {m : HE ω α'} {v : EM α} {Q : α' → α → HEm ω → Emitter → Blocks → Prop} (h1 : ERel W A base P m v Q)
    (hp : ∀ p s b, P' p s b → P p s b) : ERel W A base P' m v Q :=
  fun p s b fr h h2 e hu => h1 p s b fr h (hp p s b h2) e hu

theorem erel_post {m : HE ω α'} {v : EM α} {Q Q' : α' → α → HEm ω → Emitter → Blocks → Prop} (h1 : ERel W A base P m v Q)
    (hq : ∀ a' a p s b, Q a' a p s b → Q' a' a p s b) : ERel W A base P m v Q' := by
  intro p s b fr h h2 e hu
  refine hw_mono (h1 p s b fr h h2 e hu) fun r h' hr => ?_
  obtain ⟨r, q⟩ := r
  cases r with
  | error e' => exact hr
  | ok a' =>
    obtain ⟨a, b', k1, k2, k3, k4⟩ := hr
    exact ⟨a, b', k1, k2, hq _ _ _ _ _ k3, k4⟩

theorem erel_pure {a' : α'} {a : α} {Q : α' → α → HEm ω → Emitter → Blocks → Prop} (h : ∀ p s b, P p s b → Q a' a p s b) :
    ERel W A base P (pure a') (pure a) Q :=
  fun p s b _ _ hp e _ => ⟨a, b, rfl, rfl, h p s b hp, e⟩

theorem erel_ite {c c' : Prop} [Decidable c] [Decidable c'] {m n : HE ω α'} {v w : EM α} {Q : α' → α → HEm ω → Emitter → Blocks → Prop} (hc : c' ↔ c)
    (h1 : c → ERel W A base P m v Q) (h2 : ¬ c → ERel W A base P n w Q) : ERel W A base P (if c' then m else n) (if c then v else w) Q := by
  by_cases h : c
  · rw [if_pos h, if_pos (hc.mpr h)]; exact h1 h
  · rw [if_neg h, if_neg (fun hx => h (hc.mp hx))]; exact h2 h

theorem erel_when {b : Bool} {m : HE ω Unit} {v : EM Unit} {Q : Unit → Unit → HEm ω → Emitter → Blocks → Prop} (h : ERel W A base P m v Q)
    (h0 : ∀ p s b, P p s b → Q () () p s b) : ERel W A base P (eWhen b m) (whenE b v) Q := by
  cases b
  · exact erel_pure h0
  · exact h

theorem erel_fail {pr : String} {Q : α' → α → HEm ω → Emitter → Blocks → Prop} (hP : ∀ p s b, P p s b → EOwn p s b) :
    ERel W A base P (eFail pr) (failE pr) Q :=
  fun p s b _ _ hp e _ => ⟨s, b, hP p s b hp, e, rfl, rfl, rfl⟩

/-- Both sides read fields. -/
theorem erel_get {k' : HEm ω → HE ω β'} {k : Emitter → EM β} {Q : β' → β → HEm ω → Emitter → Blocks → Prop}
    (h : ∀ p s b, P p s b → ERel W A base (fun p' s' b' => P p' s' b' ∧ p' = p ∧ s' = s) (k' p) (k s) Q) :
    ERel W A base P (eGet >>= k') (getE >>= k) Q := by
  intro p s b fr h' hp e hu
  have e1 : (getE >>= k) s = k s s := by
    rw [em_bind]
    simp [getE]
  rw [e1] at hu ⊢
  exact h p s b hp p s b fr h' ⟨hp, rfl, rfl⟩ e hu

theorem erel_hget {k' : HEm ω → HE ω β'} {v : EM β} {Q : β' → β → HEm ω → Emitter → Blocks → Prop}
    (h : ∀ p s b, P p s b → ERel W A base (fun p' s' b' => P p' s' b' ∧ p' = p ∧ s' = s) (k' p) v Q) :
    ERel W A base P (eGet >>= k') v Q := by
  intro p s b fr h' hp e hu
  exact h p s b hp p s b fr h' ⟨hp, rfl, rfl⟩ e hu

theorem erel_vget {m : HE ω β'} {k : Emitter → EM β} {Q : β' → β → HEm ω → Emitter → Blocks → Prop}
    (h : ∀ p s b, P p s b → ERel W A base (fun p' s' b' => P p' s' b' ∧ p' = p ∧ s' = s) m (k s) Q) :
    ERel W A base P m (getE >>= k) Q := by
  intro p s b fr h' hp e hu
  have e1 : (getE >>= k) s = k s s := by
    rw [em_bind]
    simp [getE]
  rw [e1] at hu ⊢
  exact h p s b hp p s b fr h' ⟨hp, rfl, rfl⟩ e hu

/-- A program that only reads the heap. -/
theorem erel_lift {m : HM α'} {k' : α' → HE ω β'} {v : EM β} {Q : β' → β → HEm ω → Emitter → Blocks → Prop}
    (h1 : ∀ p s b fr h, P p s b → Ext A base (b ++ fr) h → (v s).val ≠ .error .ub →
      hw m (fun a h' => h' = h ∧ ERel W A base P (k' a) v Q) h) :
    ERel W A base P (eLift m >>= k') v Q := by
  intro p s b fr h hp e hu
  rw [hw_he_bind]
  obtain ⟨a, h', j1, rfl, j2⟩ := hw_out (h1 p s b fr h hp e hu)
  unfold hw eLift
  rw [j1]
  exact j2 p s b fr h' hp e hu

theorem hold_held (s : Emitter) (x : Held) : (s.hold x).held = x := rfl

theorem hold_hold (s : Emitter) (x y : Held) : (s.hold x).hold y = s.hold y := rfl

/-- A change of the fields that use no memory. -/
theorem eat_val {q : List QEv} {T b : Blocks} {p : HEm ω} {s : Emitter} (h : EAt q T p s b) (val : Emitter) (w : ω) :
    EAt q T { p with val := val, world := w } (val.hold s.held) b := by
  obtain ⟨x1, x2, x3, x4, x5, x6, k1, k2⟩ := h
  exact ⟨x1, x2, x3, x4, x5, x6, rfl, k2⟩

/-- Changes of the pointers into strings do not matter. -/
theorem eat_refs {q : List QEv} {T b : Blocks} {p : HEm ω} {s : Emitter} (h : EAt q T p s b) (r1 r2 r3 r4 : TextRef) :
    EAt q T { p with anchor := r1, handle := r2, suffix := r3, value := r4 } s b := h

theorem EHas.own {q : List QEv} {T b : Blocks} {I : HEm ω → Prop} {p : HEm ω} {s : Emitter} (h : EHas q T I p s b) : EOwn p s b := ⟨q, T, h.1⟩

theorem EHas.val {q : List QEv} {T b : Blocks} {I : HEm ω → Prop} {p : HEm ω} {s : Emitter} (h : EHas q T I p s b) : s = p.val.hold s.held := by
  obtain ⟨⟨x1, x2, x3, x4, x5, x6, k1, _⟩, _⟩ := h
  exact k1

/-- A function of the value emitter. -/
theorem erel_run {q : List QEv} {T : Blocks} {I : HEm ω → Prop} {m : EM α} {I' : α → HEm ω → Prop} (hm : Frames m)
    (hI : ∀ p a w, I p → (m p.val).val = .ok a → I' a { p with val := (m p.val).st, world := w }) :
    ERel W A base (EHas q T I) (eRun W m) m (fun a' a p s b => a' = a ∧ EHas q T (I' a) p s b) := by
  intro p s b fr h hp e hu
  obtain ⟨hp, hI0⟩ := hp
  have hp' := hp
  obtain ⟨x1, x2, x3, x4, x5, x6, k1, k2⟩ := hp'
  have f1 : m s = (m p.val).hold s.held := by
    have := (hm p.val s.held).1
    rw [← k1] at this
    exact this
  rw [f1] at hu ⊢
  unfold hw eRun
  cases hx : execOps (outEnv W) (m p.val).ops p.world with
  | mk o w =>
    have hh : execOps (outEnv W) ((m p.val).hold s.held).ops p.world = (o.map fun t => t.hold s.held, w) := by
      show execOps (outEnv W) (holdOps (m p.val).ops s.held) p.world = _
      rw [execOps_hold, hx]
    cases o with
    | some t =>
      simp only
      exact ⟨t.hold s.held, b, ⟨q, T, eat_val hp t w⟩, e, hh⟩
    | none =>
      simp only
      have hv : ((m p.val).hold s.held).val = (m p.val).val := rfl
      rw [hv] at hu
      cases hval : (m p.val).val with
      | ok a =>
        exact ⟨a, b, hval, hh, ⟨rfl, eat_val hp _ w, hI p a w hI0 hval⟩, e⟩
      | error x =>
        cases x with
        | ub => exact absurd hval hu
        | emitter pr => exact ⟨_, b, ⟨q, T, eat_val hp _ w⟩, e, hval, rfl, hh⟩
        | silent => exact ⟨_, b, ⟨q, T, eat_val hp _ w⟩, e, hval, rfl, hh⟩

end

end LibYaml
