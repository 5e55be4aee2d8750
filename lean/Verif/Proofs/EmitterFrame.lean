import Verif.Proofs.Emitter

/-!
# Emitter functions that leave the stacks, the queue and the tag directives alone

`Frames m`: `m` does the same whatever the four lists are, does not change them, and does not allocate.
-/

namespace LibYaml

/-- The lists of an emitter that need memory. -/
structure Held where
  states : List EState := []
  events : List EvData := []
  indents : List Int := []
  tags : List TagDir := []

def Emitter.hold (s : Emitter) (x : Held) : Emitter := { s with states := x.states, events := x.events, indents := x.indents, tags := x.tags }

def holdOps (ops : List (EOp × Emitter)) (x : Held) : List (EOp × Emitter) := ops.map fun o => (o.1, o.2.hold x)

def Res.hold {α : Type} (r : Res α) (x : Held) : Res α := ⟨holdOps r.ops x, r.val, r.st.hold x⟩

def NoAlloc (ops : List (EOp × Emitter)) : Prop := ∀ o ∈ ops, o.1 ≠ .alloc

theorem noAlloc_nil : NoAlloc [] := fun _ h => absurd h List.not_mem_nil

def Frames {α : Type} (m : EM α) : Prop := ∀ s x, m (s.hold x) = (m s).hold x ∧ NoAlloc (m s).ops

section
variable {α β : Type}

theorem Frames.pure (a : α) : Frames (pure a : EM α) := fun _ _ => ⟨rfl, noAlloc_nil⟩

theorem Frames.bind {m : EM α} {k : α → EM β} (hm : Frames m) (hk : ∀ a, Frames (k a)) : Frames (m >>= k) := by
  intro s x
  show EM.bind m k (s.hold x) = (EM.bind m k s).hold x ∧ NoAlloc (EM.bind m k s).ops
  obtain ⟨h1, h2⟩ := hm s x
  unfold EM.bind
  rw [h1]
  cases hv : (m s).val with
  | error e =>
    simp only [Res.hold, hv]
    exact ⟨trivial, h2⟩
  | ok a =>
    obtain ⟨k1, k2⟩ := hk a (m s).st x
    simp only [Res.hold, hv, k1]
    refine ⟨?_, fun o ho => ?_⟩
    · simp [holdOps]
    · rcases List.mem_append.mp ho with ho | ho
      · exact h2 o ho
      · exact k2 o ho

theorem Frames.get {k : Emitter → EM α} (h : ∀ s x, k (s.hold x) = k s) (hk : ∀ s, Frames (k s)) : Frames (getE >>= k) := by
  intro s x
  show EM.bind getE k (s.hold x) = (EM.bind getE k s).hold x ∧ NoAlloc (EM.bind getE k s).ops
  obtain ⟨k1, k2⟩ := hk s s x
  have e1 : ∀ t, EM.bind getE k t = k t t := fun t => by
    unfold EM.bind getE
    simp
  rw [e1, e1, h, k1]
  exact ⟨rfl, k2⟩

theorem Frames.mod {f : Emitter → Emitter} (h : ∀ s x, f (s.hold x) = (f s).hold x) : Frames (modE f) := fun s x =>
  ⟨by unfold modE Res.hold; rw [h]; rfl, noAlloc_nil⟩

theorem Frames.out (op : WOp) : Frames (opE (.out op)) := fun s x =>
  ⟨rfl, fun o ho => by unfold opE at ho; rw [List.mem_singleton.mp ho]; exact fun h => EOp.noConfusion h⟩

theorem Frames.fail (p : String) : Frames (failE p : EM α) := fun _ _ => ⟨rfl, noAlloc_nil⟩

theorem Frames.when {b : Bool} {m : EM Unit} (h : Frames m) : Frames (whenE b m) := by
  cases b
  · exact Frames.pure ()
  · exact h

theorem Frames.ite {c : Prop} [Decidable c] {m n : EM α} (hm : Frames m) (hn : Frames n) : Frames (if c then m else n) := by
  split
  · exact hm
  · exact hn

theorem Frames.some {x : Option α} {f : α → EM Unit} (h : ∀ a, Frames (f a)) : Frames (someE x f) := by
  cases x with
  | none => exact Frames.pure ()
  | some a => exact h a

end

theorem frames_outE (cs : Text) : Frames (outE cs) := Frames.out _

/-- Decompose. -/
macro "framing" : tactic => `(tactic|
  repeat (first
    | assumption
    | with_reducible exact Frames.pure _
    | with_reducible exact Frames.fail _
    | with_reducible exact Frames.out _
    | with_reducible exact frames_outE _
    | with_reducible refine Frames.when ?_
    | with_reducible refine Frames.some fun _ => ?_
    | ((with_reducible refine Frames.get ?_ ?_); exact fun _ _ => rfl; intro _)
    | (with_reducible refine Frames.bind ?_ fun _ => ?_)
    | with_reducible refine Frames.ite ?_ ?_
    | ((with_reducible refine Frames.mod ?_); exact fun _ _ => rfl)))

theorem frames_putC (c : Nat) : Frames (putC c) := by unfold putC; framing

theorem frames_putBreak : Frames putBreak := by unfold putBreak; framing

theorem frames_writeBreak (c : Nat) : Frames (writeBreak c) := by
  have := frames_putBreak
  unfold writeBreak; framing

theorem frames_writeAll (t : Text) : Frames (writeAll t) := by
  induction t with
  | nil => exact Frames.pure _
  | cons c cs ih => exact (frames_putC c).bind fun _ => ih

theorem frames_setWs (w i : Bool) : Frames (setWs w i) := Frames.mod fun _ _ => rfl

theorem frames_putSpaces (n : Nat) : Frames (putSpaces n) := by
  induction n with
  | zero => exact Frames.pure _
  | succ n ih => exact (frames_putC _).bind fun _ => ih

theorem frames_writeIndent : Frames writeIndent := by
  have h1 := frames_putBreak
  have h2 := frames_putSpaces
  unfold writeIndent
  exact Frames.get (fun _ _ => rfl) fun _ => (Frames.when h1).bind fun _ => Frames.get (fun _ _ => rfl) fun _ => Frames.get (fun _ _ => rfl) fun _ =>
    (h2 _).bind fun _ => frames_setWs _ _

theorem frames_writeIndicator (t : Text) (a b c : Bool) : Frames (writeIndicator t a b c) := by
  have := frames_putC (c! ' ')
  have := frames_writeAll t
  unfold writeIndicator; framing

theorem frames_writeAnchor (t : Text) : Frames (writeAnchor t) := (frames_writeAll _).bind fun _ => frames_setWs _ _

theorem frames_writeTagHandle (t : Text) : Frames (writeTagHandle t) := by
  have := frames_putC (c! ' ')
  have := frames_writeAll t
  unfold writeTagHandle setWs; framing

theorem frames_writeEscapes (bs : List UInt8) : Frames (writeEscapes bs) := by
  induction bs with
  | nil => exact Frames.pure _
  | cons b bs ih => exact (frames_putC _).bind fun _ => (frames_putC _).bind fun _ => (frames_putC _).bind fun _ => ih

theorem frames_writeTagChars (t : Text) : Frames (writeTagChars t) := by
  induction t with
  | nil => exact Frames.pure _
  | cons c cs ih =>
    unfold writeTagChars
    exact (Frames.ite (frames_putC _) (frames_writeEscapes _)).bind fun _ => ih

theorem frames_writeTagContent (t : Text) (b : Bool) : Frames (writeTagContent t b) := by
  have := frames_putC (c! ' ')
  have := frames_writeTagChars t
  unfold writeTagContent setWs; framing

theorem frames_plainLoop (ab : Bool) (t : Text) (sp br : Bool) : Frames (plainLoop ab t sp br) := by
  induction t generalizing sp br with
  | nil => exact Frames.pure _
  | cons c cs ih =>
    have := frames_writeIndent
    have := frames_putC c
    have := frames_putBreak
    have := frames_writeBreak c
    have := ih true br
    have := ih sp true
    have := ih false false
    unfold plainLoop; framing

theorem frames_writePlain (t : Text) (b : Bool) : Frames (writePlain t b) := by
  have := frames_putC (c! ' ')
  have := frames_plainLoop b t false false
  unfold writePlain setWs; framing

theorem frames_singleLoop (ab : Bool) (t : Text) (fi sp br : Bool) : Frames (singleLoop ab t fi sp br) := by
  induction t generalizing fi sp br with
  | nil => exact Frames.pure _
  | cons c cs ih =>
    have := frames_writeIndent
    have := frames_putC c
    have := frames_putC (c! '\'')
    have := frames_putBreak
    have := frames_writeBreak c
    have := ih false true br
    have := ih false sp true
    have := ih false false false
    unfold singleLoop; framing

theorem frames_writeSingle (t : Text) (b : Bool) : Frames (writeSingle t b) :=
  (frames_writeIndicator _ _ _ _).bind fun _ => (frames_singleLoop _ _ _ _ _).bind fun _ =>
    (Frames.when frames_writeIndent).bind fun _ => (frames_writeIndicator _ _ _ _).bind fun _ => frames_setWs _ _

theorem frames_doubleLoop (ab : Bool) (t : Text) (fi sp : Bool) : Frames (doubleLoop ab t fi sp) := by
  induction t generalizing fi sp with
  | nil => exact Frames.pure _
  | cons c cs ih =>
    have := frames_writeIndent
    have := frames_putC c
    have := frames_putC (c! '\\')
    have := frames_writeAll (escapeText c)
    have := ih false true
    have := ih false false
    unfold doubleLoop; framing

theorem frames_writeDouble (t : Text) (b : Bool) : Frames (writeDouble t b) :=
  (frames_writeIndicator _ _ _ _).bind fun _ => (frames_doubleLoop _ _ _ _).bind fun _ =>
    (frames_writeIndicator _ _ _ _).bind fun _ => frames_setWs _ _

theorem frames_writeHints (t : Text) : Frames (writeHints t) := by
  have := frames_writeIndicator (chompHint t.reverse).1 false false false
  unfold writeHints
  exact (Frames.when (Frames.get (fun _ _ => rfl) fun _ => frames_writeIndicator _ _ _ _)).bind fun _ =>
    (Frames.mod fun _ _ => rfl).bind fun _ => Frames.when this

theorem frames_literalLoop (t : Text) (br : Bool) : Frames (literalLoop t br) := by
  induction t generalizing br with
  | nil => exact Frames.pure _
  | cons c cs ih =>
    have := frames_writeIndent
    have := frames_putC c
    have := frames_writeBreak c
    have := ih true
    have := ih false
    unfold literalLoop; framing

theorem frames_writeLiteral (t : Text) : Frames (writeLiteral t) :=
  (frames_writeIndicator _ _ _ _).bind fun _ => (frames_writeHints _).bind fun _ => frames_putBreak.bind fun _ =>
    (frames_setWs _ _).bind fun _ => frames_literalLoop _ _

theorem frames_foldedLoop (t : Text) (br ls : Bool) : Frames (foldedLoop t br ls) := by
  induction t generalizing br ls with
  | nil => exact Frames.pure _
  | cons c cs ih =>
    have := frames_writeIndent
    have := frames_putC c
    have := frames_putBreak
    have := frames_writeBreak c
    have := ih true ls
    have := ih false (if br = true then isBlank c else ls)
    unfold foldedLoop; framing

theorem frames_writeFolded (t : Text) : Frames (writeFolded t) :=
  (frames_writeIndicator _ _ _ _).bind fun _ => (frames_writeHints _).bind fun _ => frames_putBreak.bind fun _ =>
    (frames_setWs _ _).bind fun _ => frames_foldedLoop _ _ _

theorem frames_processScalar : Frames processScalar := by
  unfold processScalar
  refine Frames.get (fun _ _ => rfl) fun s => ?_
  cases s.scalar.style with
  | any => exact fun _ _ => ⟨rfl, noAlloc_nil⟩
  | plain => exact frames_writePlain _ _
  | single => exact frames_writeSingle _ _
  | double => exact frames_writeDouble _ _
  | literal => exact frames_writeLiteral _
  | folded => exact frames_writeFolded _

theorem frames_processAnchor : Frames processAnchor := by
  unfold processAnchor
  refine Frames.get (fun _ _ => rfl) fun s => ?_
  cases s.anchor with
  | none => exact Frames.pure _
  | some a => exact (frames_writeIndicator _ _ _ _).bind fun _ => frames_writeAnchor _

theorem frames_processTag : Frames processTag := by
  unfold processTag
  refine Frames.get (fun _ _ => rfl) fun s => ?_
  cases s.tagHandle with
  | none =>
    cases s.tagSuffix with
    | none => exact Frames.pure _
    | some x => exact (frames_writeIndicator _ _ _ _).bind fun _ => (frames_writeTagContent _ _).bind fun _ => frames_writeIndicator _ _ _ _
  | some h =>
    cases s.tagSuffix with
    | none => exact frames_writeTagHandle _
    | some x => exact (frames_writeTagHandle _).bind fun _ => frames_writeTagContent _ _

theorem frames_writeVersion (v : Version) : Frames (writeVersion v) :=
  (frames_writeIndicator _ _ _ _).bind fun _ => (frames_writeIndicator _ _ _ _).bind fun _ => frames_writeIndent

theorem frames_writeBom : Frames writeBom := Frames.out _

theorem frames_analyzeVersion (v : Version) : Frames (analyzeVersion v) := by unfold analyzeVersion; framing

theorem frames_analyzeTagDirective (d : TagDir) : Frames (analyzeTagDirective d) := by unfold analyzeTagDirective; framing

theorem frames_analyzeAnchor (a : Text) (b : Bool) : Frames (analyzeAnchor a b) := by unfold analyzeAnchor; framing

theorem frames_analyzeScalar (v : Text) : Frames (analyzeScalar v) := Frames.mod fun _ _ => rfl

theorem frames_selectScalarStyle (p q : Bool) (st : ScalarStyle) : Frames (selectScalarStyle p q st) := by
  unfold selectScalarStyle
  exact Frames.get (fun _ _ => rfl) fun s => Frames.ite (Frames.fail _) (Frames.mod fun _ _ => rfl)

end LibYaml
