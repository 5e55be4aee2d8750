import Verif.Proofs.Emitter
import Verif.Proofs.Writer

/-! The emitter hands only permitted characters to the writer, and never more than fit behind its check for room. -/

namespace LibYaml

open Spec

/-- A character the emitter may write: permitted in a stream, in the basic plane, and not a byte order mark. -/
def Inked (c : Nat) : Prop := Permitted c ∧ c < 0x10000 ∧ c ≠ 0xFEFF

instance (c : Nat) : Decidable (Inked c) := by unfold Inked; infer_instance

/-- An operation the writer can carry out: its text may be written and fits. -/
def EOp.Clean : EOp → Prop
  | .alloc => True
  | .out w => w.Valid ∧ ∀ c ∈ w.text, Inked c

/-- A clean operation, or the output of a byte order mark. -/
def EOp.Marked (op : EOp) : Prop := op.Clean ∨ op = .out (.chars [0xFEFF])

/-- A quiet computation whose operations are clean, given the setting of the indentation. -/
def Pen {α : Type} (m : EM α) : Prop :=
  ∀ s : Emitter, s.bestIndent ≤ 9 → (∃ a, (m s).val = .ok a ∧ Kin s (m s).st) ∧ ∀ p ∈ (m s).ops, p.1.Clean ∧ Kin s p.2

theorem Kin.bestIndent {s t : Emitter} (h : Kin s t) : t.bestIndent = s.bestIndent := by rw [h]

section
variable {α β : Type}

theorem Pen.bind {m : EM α} {k : α → EM β} (hm : Pen m) (hk : ∀ a, Pen (k a)) : Pen (m >>= k) := by
  intro s hs
  obtain ⟨⟨a, ha, h1⟩, h2⟩ := hm s hs
  obtain ⟨⟨b, hb, h3⟩, h4⟩ := hk a (m s).st (h1.bestIndent ▸ hs)
  show (∃ b, (EM.bind m k s).val = .ok b ∧ Kin s (EM.bind m k s).st) ∧ ∀ p ∈ (EM.bind m k s).ops, _
  unfold EM.bind
  rw [ha]
  refine ⟨⟨b, hb, h1.trans h3⟩, fun p hp => ?_⟩
  rcases List.mem_append.mp hp with h | h
  · exact h2 p h
  · exact ⟨(h4 p h).1, h1.trans (h4 p h).2⟩

theorem Pen.pure (a : α) : Pen (pure a : EM α) := fun s _ => ⟨⟨a, rfl, Kin.refl s⟩, fun _ h => absurd h List.not_mem_nil⟩
theorem Pen.getE : Pen getE := fun s _ => ⟨⟨s, rfl, Kin.refl s⟩, fun _ h => absurd h List.not_mem_nil⟩
theorem Pen.opE {op : EOp} (h : op.Clean) : Pen (opE op) := fun s _ => ⟨⟨(), rfl, Kin.refl s⟩, fun p hp => by
  rw [List.mem_singleton.mp hp]; exact ⟨h, Kin.refl s⟩⟩
theorem Pen.modE {f : Emitter → Emitter} (h : ∀ s, Kin s (f s)) : Pen (modE f) :=
  fun s _ => ⟨⟨(), rfl, h s⟩, fun _ hp => absurd hp List.not_mem_nil⟩
theorem Pen.modBind {f : Emitter → Emitter} {k : Unit → EM α} (h : ∀ s, Kin s (f s)) (hk : ∀ a, Pen (k a)) :
    Pen (LibYaml.modE f >>= k) := (Pen.modE h).bind hk
theorem Pen.whenE {b : Bool} {m : EM Unit} (h : Pen m) : Pen (whenE b m) := by
  cases b
  · exact Pen.pure ()
  · exact h
theorem Pen.ite {c : Prop} [Decidable c] {m n : EM α} (hm : c → Pen m) (hn : ¬ c → Pen n) : Pen (if c then m else n) := by
  split
  · exact hm ‹_›
  · exact hn ‹_›
/-- The condition may use what is known about the emitter. -/
theorem Pen.look {k : Emitter → EM α} (hk : ∀ s : Emitter, s.bestIndent ≤ 9 → Pen (k s)) : Pen (LibYaml.getE >>= k) := by
  intro s hs
  exact hk s hs s hs
end

theorem utf8_le_four (c : Nat) : (utf8 c).length ≤ 4 := by
  unfold utf8
  repeat' split
  all_goals simp

theorem clean_one {c : Nat} (h : Inked c) : (EOp.out (.chars [c])).Clean := by
  refine ⟨⟨?_, ?_⟩, ?_⟩
  · intro d hd
    rw [List.mem_singleton.mp hd]
    unfold Inked at h
    omega
  · have := utf8_le_four c
    simp only [utf8s, List.flatMap_cons, List.flatMap_nil, List.append_nil]
    omega
  · intro d hd
    rw [List.mem_singleton.mp hd]
    exact h

theorem pen_putC {c : Nat} (h : Inked c) : Pen (putC c) := by
  unfold putC; exact (Pen.opE (clean_one h)).bind fun _ => Pen.modE fun _ => rfl

theorem clean_brk (b : Option Break) : (EOp.out (.chars (brkText b))).Clean := by
  cases b with
  | none => exact ⟨⟨by simp [brkText], by simp [brkText, utf8s]⟩, by simp [brkText, WOp.text]⟩
  | some b => cases b <;> exact ⟨⟨by simp [brkText], by simp [brkText, utf8s, utf8]⟩, by simp [brkText, WOp.text, Inked, Permitted]⟩

theorem pen_putBreak : Pen putBreak := by
  unfold putBreak
  exact Pen.getE.bind fun _ => (Pen.opE (clean_brk _)).bind fun _ => Pen.modE fun _ => rfl

theorem pen_writeBreak {c : Nat} (h : Inked c) : Pen (writeBreak c) := by
  unfold writeBreak
  exact Pen.ite (fun _ => pen_putBreak) fun _ => (Pen.opE (clean_one h)).bind fun _ => Pen.modE fun _ => rfl

theorem pen_writeAll {t : Text} (h : ∀ c ∈ t, Inked c) : Pen (writeAll t) := by
  induction t with
  | nil => exact Pen.pure _
  | cons c cs ih => exact (pen_putC (h c List.mem_cons_self)).bind fun _ => ih fun d hd => h d (List.mem_cons_of_mem _ hd)

theorem pen_setWs (w i : Bool) : Pen (setWs w i) := Pen.modE fun _ => rfl

theorem permitted_ascii {c : Nat} (h : 0x20 ≤ c ∧ c ≤ 0x7E) : Inked c := ⟨Or.inr (Or.inr (Or.inr (Or.inl h))), by omega, by omega⟩

theorem pen_putSpaces (n : Nat) : Pen (putSpaces n) := by
  induction n with
  | zero => exact Pen.pure _
  | succ n ih => exact (pen_putC (by decide)).bind fun _ => ih

theorem pen_writeIndent : Pen writeIndent := by
  have h1 := pen_putBreak
  unfold writeIndent
  exact Pen.getE.bind fun _ => (Pen.whenE h1).bind fun _ => Pen.getE.bind fun _ => Pen.getE.bind fun _ =>
    (pen_putSpaces _).bind fun _ => pen_setWs _ _

theorem pen_writeIndicator {t : Text} {a b c : Bool} (h : ∀ c ∈ t, Inked c) : Pen (writeIndicator t a b c) := by
  unfold writeIndicator
  exact Pen.getE.bind fun _ => (Pen.whenE (pen_putC (by decide))).bind fun _ => (pen_writeAll h).bind fun _ =>
    Pen.modE fun _ => rfl

theorem pen_writeAnchor {t : Text} (h : ∀ c ∈ t, Inked c) : Pen (writeAnchor t) :=
  (pen_writeAll h).bind fun _ => pen_setWs _ _

theorem pen_writeTagHandle {t : Text} (h : ∀ c ∈ t, Inked c) : Pen (writeTagHandle t) :=
  Pen.getE.bind fun _ => (Pen.whenE (pen_putC (by decide))).bind fun _ => (pen_writeAll h).bind fun _ => pen_setWs _ _

theorem permitted_hex {d : Nat} (h : d < 16) : Inked (hexChar d) := by
  apply permitted_ascii
  unfold hexChar
  split
  · show 0x20 ≤ 48 + d ∧ 48 + d ≤ 0x7E
    omega
  · show 0x20 ≤ 65 - 10 + d ∧ 65 - 10 + d ≤ 0x7E
    omega

theorem low_lt (n : Nat) : n &&& 0x0F < 16 := Nat.lt_of_le_of_lt Nat.and_le_right (by decide)

theorem pen_writeEscapes (bs : List UInt8) : Pen (writeEscapes bs) := by
  induction bs with
  | nil => exact Pen.pure _
  | cons b bs ih =>
    refine (pen_putC (by decide)).bind fun _ => (pen_putC (permitted_hex ?_)).bind fun _ => (pen_putC (permitted_hex (low_lt _))).bind fun _ => ih
    have := b.toNat_lt
    rw [Nat.shiftRight_eq_div_pow]
    omega

theorem permitted_alpha {c : Nat} (h : isAlpha c = true) : Inked c := by
  apply permitted_ascii
  simp [isAlpha] at h
  omega

theorem permitted_tagChar {c : Nat} (h : tagChar c = true) : Inked c := by
  apply permitted_ascii
  simp [tagChar, isAlpha] at h
  omega

theorem pen_writeTagChars (t : Text) : Pen (writeTagChars t) := by
  induction t with
  | nil => exact Pen.pure _
  | cons c cs ih =>
    unfold writeTagChars
    exact (Pen.ite (fun h => pen_putC (permitted_tagChar h)) fun _ => pen_writeEscapes _).bind fun _ => ih

theorem pen_writeTagContent (t : Text) (b : Bool) : Pen (writeTagContent t b) :=
  Pen.getE.bind fun _ => (Pen.whenE (pen_putC (by decide))).bind fun _ => (pen_writeTagChars _).bind fun _ => pen_setWs _ _

theorem permitted_printable {c : Nat} (h : isPrintable c = true) : Inked c := by
  simp [isPrintable] at h
  unfold Inked Permitted
  omega

/-- All of the text is printable. -/
def Printable (t : Text) : Prop := ∀ c ∈ t, isPrintable c = true

theorem Printable.head {c : Nat} {t : Text} (h : Printable (c :: t)) : Inked c := permitted_printable (h c List.mem_cons_self)
theorem Printable.tail {c : Nat} {t : Text} (h : Printable (c :: t)) : Printable t := fun d hd => h d (List.mem_cons_of_mem _ hd)

theorem pen_plainLoop (ab : Bool) {t : Text} (h : Printable t) (sp br : Bool) : Pen (plainLoop ab t sp br) := by
  induction t generalizing sp br with
  | nil => exact Pen.pure _
  | cons c cs ih =>
    unfold plainLoop
    have ih := ih h.tail
    refine Pen.ite (fun _ => ?_) fun _ => Pen.ite (fun _ => ?_) fun _ => ?_
    · exact Pen.getE.bind fun _ => (Pen.ite (fun _ => pen_writeIndent) fun _ => pen_putC h.head).bind fun _ => ih _ _
    · exact (Pen.whenE pen_putBreak).bind fun _ => (pen_writeBreak h.head).bind fun _ =>
        Pen.modBind (fun _ => rfl) fun _ => ih _ _
    · exact (Pen.whenE pen_writeIndent).bind fun _ => (pen_putC h.head).bind fun _ =>
        Pen.modBind (fun _ => rfl) fun _ => ih _ _

theorem pen_writePlain {t : Text} (h : Printable t) (b : Bool) : Pen (writePlain t b) :=
  Pen.getE.bind fun _ => (Pen.whenE (pen_putC (by decide))).bind fun _ => (pen_plainLoop _ h _ _).bind fun _ => pen_setWs _ _

theorem pen_singleLoop (ab : Bool) {t : Text} (h : Printable t) (fi sp br : Bool) : Pen (singleLoop ab t fi sp br) := by
  induction t generalizing fi sp br with
  | nil => exact Pen.pure _
  | cons c cs ih =>
    unfold singleLoop
    have ih := ih h.tail
    refine Pen.ite (fun _ => ?_) fun _ => Pen.ite (fun _ => ?_) fun _ => ?_
    · exact Pen.getE.bind fun _ => (Pen.ite (fun _ => pen_writeIndent) fun _ => pen_putC h.head).bind fun _ => ih _ _ _
    · exact (Pen.whenE pen_putBreak).bind fun _ => (pen_writeBreak h.head).bind fun _ =>
        Pen.modBind (fun _ => rfl) fun _ => ih _ _ _
    · exact (Pen.whenE pen_writeIndent).bind fun _ => (Pen.whenE (pen_putC (by decide))).bind fun _ =>
        (pen_putC h.head).bind fun _ => Pen.modBind (fun _ => rfl) fun _ => ih _ _ _

theorem pen_writeSingle {t : Text} (h : Printable t) (b : Bool) : Pen (writeSingle t b) :=
  (pen_writeIndicator (by decide)).bind fun _ => (pen_singleLoop _ h _ _ _).bind fun _ =>
    (Pen.whenE pen_writeIndent).bind fun _ => (pen_writeIndicator (by decide)).bind fun _ => pen_setWs _ _

theorem permitted_hexDigits (v n : Nat) : ∀ c ∈ hexDigits v n, Inked c := by
  induction n with
  | zero => simp [hexDigits]
  | succ n ih =>
    intro c hc
    rcases List.mem_cons.mp hc with rfl | hc
    · exact permitted_hex (low_lt _)
    · exact ih c hc

theorem all_ite {P : Prop} [Decidable P] {a b : Text} (ha : ∀ c ∈ a, Inked c) (hb : ∀ c ∈ b, Inked c) : ∀ c ∈ (if P then a else b), Inked c := by
  split
  · exact ha
  · exact hb

theorem permitted_escape (v : Nat) : ∀ c ∈ escapeText v, Inked c := by
  unfold escapeText
  repeat (refine all_ite (by decide) ?_)
  have hx : ∀ (a n : Nat), Inked a → ∀ c ∈ a :: hexDigits v n, Inked c := by
    intro a n ha c hc
    rcases List.mem_cons.mp hc with rfl | hc
    · exact ha
    · exact permitted_hexDigits _ _ c hc
  exact all_ite (hx _ _ (by decide)) (all_ite (hx _ _ (by decide)) (hx _ _ (by decide)))

theorem pen_doubleLoop (ab : Bool) (t : Text) (fi sp : Bool) : Pen (doubleLoop ab t fi sp) := by
  induction t generalizing fi sp with
  | nil => exact Pen.pure _
  | cons c cs ih =>
    unfold doubleLoop
    refine Pen.getE.bind fun s => Pen.ite (fun _ => ?_) fun he => ?_
    · exact (pen_putC (by decide)).bind fun _ => (pen_writeAll (permitted_escape c)).bind fun _ => ih _ _
    have hc : Inked c := by
      apply permitted_printable
      unfold mustEscape at he
      simp only [Bool.or_eq_true, not_or] at he
      simpa using he.1.1.1.1.1
    refine Pen.ite (fun _ => ?_) fun _ => ?_
    · exact (Pen.ite (fun _ => pen_writeIndent.bind fun _ => Pen.whenE (pen_putC (by decide))) fun _ => pen_putC hc).bind fun _ => ih _ _
    · exact (pen_putC hc).bind fun _ => ih _ _

theorem pen_writeDouble (t : Text) (b : Bool) : Pen (writeDouble t b) :=
  (pen_writeIndicator (by decide)).bind fun _ => (pen_doubleLoop _ _ _ _).bind fun _ =>
    (pen_writeIndicator (by decide)).bind fun _ => pen_setWs _ _

theorem permitted_chomp (t : Text) : ∀ c ∈ (chompHint t).1, Inked c := by
  unfold chompHint
  repeat' split
  all_goals decide

theorem pen_writeHints (t : Text) : Pen (writeHints t) := by
  refine (Pen.whenE (Pen.look fun s hs => pen_writeIndicator ?_)).bind fun _ =>
    Pen.modBind (fun _ => rfl) fun _ => Pen.whenE (pen_writeIndicator (permitted_chomp _))
  intro c hc
  rw [List.mem_singleton.mp hc]
  apply permitted_ascii
  show 0x20 ≤ 48 + s.bestIndent.toNat ∧ 48 + s.bestIndent.toNat ≤ 0x7E
  omega

theorem pen_literalLoop {t : Text} (h : Printable t) (br : Bool) : Pen (literalLoop t br) := by
  induction t generalizing br with
  | nil => exact Pen.pure _
  | cons c cs ih =>
    unfold literalLoop
    have ih := ih h.tail
    refine Pen.ite (fun _ => ?_) fun _ => ?_
    · exact (pen_writeBreak h.head).bind fun _ => Pen.modBind (fun _ => rfl) fun _ => ih _
    · exact (Pen.whenE pen_writeIndent).bind fun _ => (pen_putC h.head).bind fun _ =>
        Pen.modBind (fun _ => rfl) fun _ => ih _

theorem pen_writeLiteral {t : Text} (h : Printable t) : Pen (writeLiteral t) :=
  (pen_writeIndicator (by decide)).bind fun _ => (pen_writeHints _).bind fun _ => pen_putBreak.bind fun _ =>
    (pen_setWs _ _).bind fun _ => pen_literalLoop h _

theorem pen_foldedLoop {t : Text} (h : Printable t) (br ls : Bool) : Pen (foldedLoop t br ls) := by
  induction t generalizing br ls with
  | nil => exact Pen.pure _
  | cons c cs ih =>
    unfold foldedLoop
    have ih := ih h.tail
    refine Pen.ite (fun _ => ?_) fun _ => ?_
    · exact (Pen.whenE pen_putBreak).bind fun _ => (pen_writeBreak h.head).bind fun _ =>
        Pen.modBind (fun _ => rfl) fun _ => ih _ _
    · exact (Pen.whenE pen_writeIndent).bind fun _ => Pen.getE.bind fun _ =>
        (Pen.ite (fun _ => pen_writeIndent) fun _ => pen_putC h.head).bind fun _ => Pen.modBind (fun _ => rfl) fun _ => ih _ _

theorem pen_writeFolded {t : Text} (h : Printable t) : Pen (writeFolded t) :=
  (pen_writeIndicator (by decide)).bind fun _ => (pen_writeHints _).bind fun _ => pen_putBreak.bind fun _ =>
    (pen_setWs _ _).bind fun _ => pen_foldedLoop h _ _

theorem pen_writeVersion (v : Version) : Pen (writeVersion v) := by
  refine (pen_writeIndicator (by decide)).bind fun _ => (pen_writeIndicator ?_).bind fun _ => pen_writeIndent
  split <;> decide

/-- A tag handle that can be written. -/
def TagDir.Plain (d : TagDir) : Prop := ∀ c ∈ d.handle, Inked c

theorem pen_writeTags {ds : List TagDir} (h : ∀ d ∈ ds, d.Plain) : Pen (writeTags ds) := by
  induction ds with
  | nil => exact Pen.pure _
  | cons d ds ih =>
    exact (pen_writeIndicator (by decide)).bind fun _ => (pen_writeTagHandle (h d List.mem_cons_self)).bind fun _ =>
      (pen_writeTagContent _ _).bind fun _ => pen_writeIndent.bind fun _ => ih fun e he => h e (List.mem_cons_of_mem _ he)

/-! ### The states -/

/-- What the analysis of an event leaves in the emitter can be written. -/
structure Tidy (s : Emitter) : Prop where
  anchor : ∀ a, s.anchor = some a → ∀ c ∈ a, Inked c
  handle : ∀ h, s.tagHandle = some h → ∀ c ∈ h, Inked c
  tags : ∀ d ∈ s.tags, d.Plain
  scalar : s.scalar.flowPlainAllowed = true ∨ s.scalar.blockPlainAllowed = true ∨ s.scalar.singleQuotedAllowed = true ∨ s.scalar.blockAllowed = true →
    Printable s.scalar.value

/-- Between operations, once the stream has begun. -/
structure Neat (s : Emitter) : Prop where
  tidy : Tidy s
  low : s.bestIndent ≤ 9
  began : s.state ≠ .streamStart
  stack : .streamStart ∉ s.states

theorem Tidy.kin {s t : Emitter} (h : Tidy s) (k : Kin s t) : Tidy t := by
  rw [k]
  exact ⟨h.anchor, h.handle, h.tags, h.scalar⟩

theorem Neat.kin {s t : Emitter} (h : Neat s) (k : Kin s t) : Neat t := by
  refine ⟨h.tidy.kin k, k.bestIndent ▸ h.low, ?_, ?_⟩ <;> rw [k]
  · exact h.began
  · exact h.stack

/-- All operations of `m` from `s` satisfy `K`, `I` holds whenever one is performed and when `m` fails, and `Q` when it succeeds. -/
def ow {α : Type} (K : EOp → Prop) (I : Emitter → Prop) (m : EM α) (Q : α → Emitter → Prop) (s : Emitter) : Prop :=
  (∀ p ∈ (m s).ops, K p.1 ∧ I p.2) ∧
  match (m s).val with
  | .ok a => Q a (m s).st
  | .error _ => I (m s).st

section
variable {α β : Type} {K : EOp → Prop} {I : Emitter → Prop} {s : Emitter}

theorem ow_bind {m : EM α} {k : α → EM β} {Q : β → Emitter → Prop} (h : ow K I m (fun a s' => ow K I (k a) Q s') s) : ow K I (m >>= k) Q s := by
  show ow K I (EM.bind m k) Q s
  unfold ow EM.bind at *
  cases hm : (m s).val with
  | error e =>
    rw [hm] at h
    exact h
  | ok a =>
    rw [hm] at h
    refine ⟨fun p hp => ?_, h.2.2⟩
    rcases List.mem_append.mp hp with hp | hp
    · exact h.1 p hp
    · exact h.2.1 p hp

theorem ow_pure {b : β} {Q : β → Emitter → Prop} (h : Q b s) : ow K I (pure b) Q s := ⟨fun _ h => absurd h List.not_mem_nil, h⟩
theorem ow_getE {Q : Emitter → Emitter → Prop} (h : Q s s) : ow K I getE Q s := ⟨fun _ h => absurd h List.not_mem_nil, h⟩
theorem ow_modE {f : Emitter → Emitter} {Q : Unit → Emitter → Prop} (h : Q () (f s)) : ow K I (modE f) Q s := ⟨fun _ h => absurd h List.not_mem_nil, h⟩
theorem ow_opE {op : EOp} {Q : Unit → Emitter → Prop} (hc : K op) (hi : I s) (h : Q () s) : ow K I (opE op) Q s :=
  ⟨fun p hp => by rw [List.mem_singleton.mp hp]; exact ⟨hc, hi⟩, h⟩
theorem ow_failE {p : String} {Q : β → Emitter → Prop} (h : I s) : ow K I (failE p) Q s := ⟨fun _ h => absurd h List.not_mem_nil, h⟩
theorem ow_whenE {b : Bool} {m : EM Unit} {Q : Unit → Emitter → Prop} (h1 : b = true → ow K I m Q s) (h2 : b = false → Q () s) : ow K I (whenE b m) Q s := by
  cases b
  · exact ow_pure (h2 rfl)
  · exact h1 rfl
theorem ow_ite {c : Prop} [Decidable c] {m n : EM β} {Q : β → Emitter → Prop} (h1 : c → ow K I m Q s) (h2 : ¬ c → ow K I n Q s) : ow K I (if c then m else n) Q s := by
  split
  · exact h1 ‹_›
  · exact h2 ‹_›
theorem ow_mono {m : EM α} {Q Q' : α → Emitter → Prop} {L : EOp → Prop} {J : Emitter → Prop} (h : ow L J m Q s) (hK : ∀ op, L op → K op) (hI : ∀ t, J t → I t) (hQ : ∀ a t, Q a t → Q' a t) : ow K I m Q' s := by
  unfold ow at *
  refine ⟨fun p hp => ⟨hK _ (h.1 p hp).1, hI _ (h.1 p hp).2⟩, ?_⟩
  have := h.2
  split <;> rename_i heq <;> rw [heq] at this
  · exact hQ _ _ this
  · exact hI _ this
end

/-- Use of a writer. -/
theorem Pen.ow {α : Type} {m : EM α} {Q : α → Emitter → Prop} {s : Emitter} (h : Pen m) (hs : Neat s) (hQ : ∀ a t, Kin s t → Neat t → Q a t) : ow EOp.Clean Neat m Q s := by
  obtain ⟨⟨a, ha, hk⟩, ho⟩ := h s hs.low
  refine ⟨fun p hp => ⟨(ho p hp).1, hs.kin (ho p hp).2⟩, ?_⟩
  rw [ha]
  exact hQ a _ hk (hs.kin hk)

/-- Assignments that do not touch what is written. -/
theorem Neat.mod {s t : Emitter} (h : Neat s) (h1 : t.anchor = s.anchor) (h2 : t.tagHandle = s.tagHandle) (h3 : t.tags = s.tags) (h4 : t.scalar = s.scalar)
    (h5 : t.bestIndent = s.bestIndent) (h6 : t.state = s.state := by rfl) (h7 : t.states = s.states := by rfl) : Neat t := by
  refine ⟨⟨?_, ?_, ?_, ?_⟩, ?_, ?_, ?_⟩
  · rw [h1]; exact h.tidy.anchor
  · rw [h2]; exact h.tidy.handle
  · rw [h3]; exact h.tidy.tags
  · rw [h4]; exact h.tidy.scalar
  · rw [h5]; exact h.low
  · rw [h6]; exact h.began
  · rw [h7]; exact h.stack

section
variable {s : Emitter} {Q : Unit → Emitter → Prop}

theorem ow_popState (h : Neat s) (hQ : ∀ t, Neat t → Q () t) : ow EOp.Clean Neat popStateE Q s := by
  unfold popStateE
  cases hs : s.states with
  | nil => refine ⟨?_, ?_⟩ <;> simp only [hs] <;> first | exact fun _ h => absurd h List.not_mem_nil | exact h
  | cons x xs =>
    have hn := h.stack
    rw [hs, List.mem_cons, not_or] at hn
    refine ⟨?_, ?_⟩ <;> simp only [hs]
    · exact fun _ h => absurd h List.not_mem_nil
    · exact hQ _ ⟨⟨h.tidy.anchor, h.tidy.handle, h.tidy.tags, h.tidy.scalar⟩, h.low, Ne.symm hn.1, hn.2⟩

theorem ow_popIndent (h : Neat s) (hQ : ∀ t, Neat t → Q () t) : ow EOp.Clean Neat popIndent Q s := by
  unfold popIndent
  cases hs : s.indents with
  | nil => refine ⟨?_, ?_⟩ <;> simp only [hs] <;> first | exact fun _ h => absurd h List.not_mem_nil | exact h
  | cons x xs => refine ⟨?_, ?_⟩ <;> simp only [hs] <;> first | exact fun _ h => absurd h List.not_mem_nil | exact hQ _ (h.mod rfl rfl rfl rfl rfl)

theorem ow_pushState {x : EState} (h : Neat s) (hQ : ∀ t, Neat t → Q () t) (hx : x ≠ .streamStart := by decide) : ow EOp.Clean Neat (pushStateE x) Q s := by
  refine ow_bind (ow_opE trivial h (ow_modE (hQ _ ⟨⟨h.tidy.anchor, h.tidy.handle, h.tidy.tags, h.tidy.scalar⟩, h.low, h.began, ?_⟩)))
  simp only [List.mem_cons, not_or]
  exact ⟨Ne.symm hx, h.stack⟩

theorem ow_increase {a b : Bool} (h : Neat s) (hQ : ∀ t, Neat t → t.scalar = s.scalar → Q () t) : ow EOp.Clean Neat (increaseIndent a b) Q s :=
  ow_bind (ow_opE trivial h (ow_modE (hQ _ (h.mod rfl rfl rfl rfl rfl) rfl)))

theorem ow_setState {x : EState} (h : Neat s) (hQ : ∀ t, Neat t → Q () t) (hx : x ≠ .streamStart := by decide) : ow EOp.Clean Neat (setStateE x) Q s :=
  ow_modE (hQ _ ⟨⟨h.tidy.anchor, h.tidy.handle, h.tidy.tags, h.tidy.scalar⟩, h.low, hx, h.stack⟩)

theorem Kin.scalarEq {s t : Emitter} (h : Kin s t) : t.scalar = s.scalar := by rw [h]

theorem ow_processAnchor (h : Neat s) (hQ : ∀ t, Neat t → t.scalar = s.scalar → Q () t) : ow EOp.Clean Neat processAnchor Q s := by
  refine ow_bind (ow_getE ?_)
  cases ha : s.anchor with
  | none => exact ow_pure (hQ _ h rfl)
  | some a =>
    refine Pen.ow (m := do writeIndicator (if s.anchorIsAlias then [c! '*'] else [c! '&']) true false false; writeAnchor a) ?_ h fun _ t k n => hQ t n k.scalarEq
    refine (pen_writeIndicator ?_).bind fun _ => pen_writeAnchor (h.tidy.anchor a ha)
    split <;> decide

theorem ow_processTag (h : Neat s) (hQ : ∀ t, Neat t → t.scalar = s.scalar → Q () t) : ow EOp.Clean Neat processTag Q s := by
  refine ow_bind (ow_getE ?_)
  cases hh : s.tagHandle with
  | none =>
    cases s.tagSuffix with
    | none => exact ow_pure (hQ _ h rfl)
    | some x =>
      exact Pen.ow (m := do writeIndicator [c! '!', c! '<'] true false false; writeTagContent x false; writeIndicator [c! '>'] false false false)
        ((pen_writeIndicator (by decide)).bind fun _ => (pen_writeTagContent _ _).bind fun _ => pen_writeIndicator (by decide)) h fun _ t k n => hQ t n k.scalarEq
  | some x =>
    cases s.tagSuffix with
    | none => exact Pen.ow (pen_writeTagHandle (h.tidy.handle x hh)) h fun _ t k n => hQ t n k.scalarEq
    | some y =>
      exact Pen.ow (m := do writeTagHandle x; writeTagContent y false)
        ((pen_writeTagHandle (h.tidy.handle x hh)).bind fun _ => pen_writeTagContent _ _) h fun _ t k n => hQ t n k.scalarEq

theorem ow_processScalar (h : Neat s) (hp : s.scalar.style ≠ .double → Printable s.scalar.value) (hQ : ∀ t, Neat t → Q () t) : ow EOp.Clean Neat processScalar Q s := by
  refine ow_bind (ow_getE ?_)
  have hQ' : ∀ (a : Unit) t, Kin s t → Neat t → Q a t := fun _ t _ n => hQ t n
  cases hs : s.scalar.style with
  | any => exact ⟨fun _ h => absurd h List.not_mem_nil, h⟩
  | plain => exact (pen_writePlain (hp (by rw [hs]; decide)) _).ow h hQ'
  | single => exact (pen_writeSingle (hp (by rw [hs]; decide)) _).ow h hQ'
  | double => exact (pen_writeDouble _ _).ow h hQ'
  | literal => exact (pen_writeLiteral (hp (by rw [hs]; decide))).ow h hQ'
  | folded => exact (pen_writeFolded (hp (by rw [hs]; decide))).ow h hQ'

/-- A style other than double quoted is chosen only for printable text. -/
theorem style_fits (h : Tidy s) (noTag p : Bool) (st : ScalarStyle) (hd : s.quotedRules (s.plainRules noTag p st) ≠ .double) : Printable s.scalar.value := by
  apply h.scalar
  unfold Emitter.quotedRules at hd
  revert hd
  generalize hx : s.plainRules noTag p st = x
  cases x with
  | any =>
    intro _
    exfalso
    unfold Emitter.plainRules at hx
    dsimp only at hx
    generalize hy : (if (s.simpleKeyContext && s.scalar.multiline) = true then ScalarStyle.double
      else if s.canonical = true then .double else if st = .any then .plain else st) = y at hx
    split at hx
    · cases hx
    · rw [hx] at hy
      repeat' split at hy
      all_goals simp_all
  | double => simp
  | plain =>
    intro _
    unfold Emitter.plainRules at hx
    dsimp only at hx
    generalize hy : (if (s.simpleKeyContext && s.scalar.multiline) = true then ScalarStyle.double
      else if s.canonical = true then .double else if st = .any then .plain else st) = y at hx
    split at hx
    · cases hx
    · rename_i hn
      rw [hx] at hn
      by_cases hf : s.flowLevel = 0
      · cases hb : s.scalar.blockPlainAllowed
        · exact absurd ⟨rfl, Or.inr (Or.inl ⟨hf, hb⟩)⟩ hn
        · exact Or.inr (Or.inl rfl)
      · cases hb : s.scalar.flowPlainAllowed
        · exact absurd ⟨rfl, Or.inl ⟨hf, hb⟩⟩ hn
        · exact Or.inl rfl
  | single =>
    cases hb : s.scalar.singleQuotedAllowed
    · simp
    · intro _; exact Or.inr (Or.inr (Or.inl rfl))
  | literal =>
    cases hb : s.scalar.blockAllowed
    · simp
    · intro _; exact Or.inr (Or.inr (Or.inr rfl))
  | folded =>
    cases hb : s.scalar.blockAllowed
    · simp
    · intro _; exact Or.inr (Or.inr (Or.inr rfl))

theorem ow_selectStyle {p q : Bool} {st : ScalarStyle} (h : Neat s) (hQ : ∀ t, Neat t → (t.scalar.style ≠ .double → Printable t.scalar.value) → Q () t) :
    ow EOp.Clean Neat (selectScalarStyle p q st) Q s := by
  refine ow_bind (ow_getE (ow_ite (fun _ => ow_failE h) fun _ => ow_modE (hQ _ ⟨⟨h.tidy.anchor, ?_, h.tidy.tags, h.tidy.scalar⟩, h.low, h.began, h.stack⟩ fun hd => by exact style_fits (s := s) h.tidy _ _ _ hd)))
  intro x hx
  dsimp only at hx
  split at hx
  · injection hx with hx
    rw [← hx]
    decide
  · exact h.tidy.handle x hx

theorem ow_node {e : EvData} {a b c d : Bool} (h : Neat s) (hQ : ∀ t, Neat t → Q () t) : ow EOp.Clean Neat (emitNode e a b c d) Q s := by
  unfold emitNode
  refine ow_bind (ow_modE ?_)
  have h : Neat _ := h.mod (t := { s with rootContext := a, sequenceContext := b, mappingContext := c, simpleKeyContext := d }) rfl rfl rfl rfl rfl
  cases e with
  | alias x =>
    exact ow_bind (ow_processAnchor h fun t n _ => ow_bind (ow_getE (ow_bind
      (ow_whenE (fun _ => (pen_putC (by decide)).ow n fun _ _ _ n => ow_popState n hQ) fun _ => ow_popState n hQ))))
  | scalar _ _ _ p q st =>
    refine ow_bind (ow_selectStyle h fun t n hp => ow_bind (ow_processAnchor n fun t1 n k1 => ow_bind (ow_processTag n fun t2 n k2 => ow_bind (ow_increase n fun t3 n k3 =>
      ow_bind (ow_processScalar n ?_ fun t n => ow_bind (ow_popIndent n fun t n => ow_popState n hQ))))))
    rw [k3, k2, k1]
    exact hp
  | sequenceStart _ _ _ st =>
    exact ow_bind (ow_processAnchor h fun t n _ => ow_bind (ow_processTag n fun t n _ => ow_bind (ow_getE (ow_setState n hQ (by split <;> decide)))))
  | mappingStart _ _ _ st =>
    exact ow_bind (ow_processAnchor h fun t n _ => ow_bind (ow_processTag n fun t n _ => ow_bind (ow_getE (ow_setState n hQ (by split <;> decide)))))
  | _ => exact ow_failE h

theorem ow_appendTag {d : TagDir} {a : Bool} (hd : d.Plain) (h : Neat s) (hQ : ∀ t, Neat t → Q () t) : ow EOp.Clean Neat (appendTagDirective d a) Q s := by
  refine ow_bind (ow_getE (ow_ite (fun _ => ow_ite (fun _ => ow_pure (hQ _ h)) fun _ => ow_failE h) fun _ => ow_bind (ow_opE trivial h (ow_modE (hQ _ ?_)))))
  refine ⟨⟨h.tidy.anchor, h.tidy.handle, fun x hx => ?_, h.tidy.scalar⟩, h.low, h.began, h.stack⟩
  rcases List.mem_append.mp hx with hx | hx
  · exact h.tidy.tags x hx
  · rw [List.mem_singleton.mp hx]; exact hd

theorem ow_analyzeTag {d : TagDir} (h : Neat s) (hQ : d.Plain → Q () s) : ow EOp.Clean Neat (analyzeTagDirective d) Q s := by
  unfold analyzeTagDirective
  refine ow_ite (fun _ => ow_failE h) fun h0 => ow_ite (fun _ => ow_failE h) fun h1 => ow_ite (fun _ => ow_failE h) fun h2 => ow_ite (fun _ => ow_failE h) fun h3 =>
    ow_ite (fun _ => ow_failE h) fun _ => ow_pure (hQ ?_)
  obtain ⟨hd, pf⟩ := d
  intro c hc
  dsimp only at *
  cases hd with
  | nil => simp at h0
  | cons x xs =>
    rcases List.mem_cons.mp hc with rfl | hc
    · simp [nextC] at h1
      rw [h1]; decide
    · rcases List.eq_nil_or_concat xs with rfl | ⟨ys, y, rfl⟩
      · cases hc
      · simp [nextC] at h2 h3
        simp at hc
        rcases hc with hc | rfl
        · exact permitted_alpha (h3 c hc)
        · rw [h2]; decide

theorem ow_appendTags {ds : List TagDir} (h : Neat s) (hQ : ∀ t, Neat t → (∀ d ∈ ds, d.Plain) → Q () t) : ow EOp.Clean Neat (appendTags ds) Q s := by
  induction ds generalizing s Q with
  | nil => exact ow_pure (hQ _ h (by simp))
  | cons d ds ih =>
    refine ow_bind (ow_analyzeTag h fun hd => ow_bind (ow_appendTag hd h fun t n => ih n fun t n hds => hQ t n ?_))
    intro x hx
    rcases List.mem_cons.mp hx with rfl | hx
    · exact hd
    · exact hds x hx

theorem ow_addDefaults {ds : List TagDir} (hd : ∀ d ∈ ds, d.Plain) (h : Neat s) (hQ : ∀ t, Neat t → Q () t) : ow EOp.Clean Neat (addDefaults ds) Q s := by
  induction ds generalizing s with
  | nil => exact ow_pure (hQ _ h)
  | cons d ds ih => exact ow_bind (ow_appendTag (hd d List.mem_cons_self) h fun t n => ih (fun x hx => hd x (List.mem_cons_of_mem _ hx)) n)

theorem ow_when {b : Bool} {m : EM Unit} (hm : Pen m) (h : Neat s) (hQ : ∀ t, Neat t → Q () t) : ow EOp.Clean Neat (whenE b m) Q s :=
  (Pen.whenE hm).ow h fun _ t _ n => hQ t n

theorem ow_pen {m : EM Unit} (hm : Pen m) (h : Neat s) (hQ : ∀ t, Neat t → Q () t) : ow EOp.Clean Neat m Q s :=
  hm.ow h fun _ t _ n => hQ t n

theorem clean_flush : (EOp.out .flush).Clean := ⟨trivial, by simp [WOp.text]⟩

theorem plain_defaults : ∀ d ∈ emitterDefaultTags, d.Plain := by
  intro d hd
  unfold emitterDefaultTags at hd
  rcases List.mem_cons.mp hd with rfl | hd
  · unfold TagDir.Plain; decide
  · rw [List.mem_singleton.mp hd]
    unfold TagDir.Plain; decide

theorem ow_documentStart {e : EvData} {first : Bool} (h : Neat s) (hQ : ∀ t, Neat t → Q () t) : ow EOp.Clean Neat (emitDocumentStart e first) Q s := by
  unfold emitDocumentStart
  cases e with
  | documentStart v tags i =>
    show ow EOp.Clean Neat (emitDocumentStartEvent v tags i first) Q s
    unfold emitDocumentStartEvent
    refine ow_bind ?_
    have key : ∀ s : Emitter, Neat s → ow EOp.Clean Neat (do
        appendTags tags
        addDefaults emitterDefaultTags
        whenE ((v.isSome || !tags.isEmpty) && (← getE).openEnded != 0) (do writeIndicator dots true false false; writeIndent)
        modE fun s => { s with openEnded := 0 }
        someE v writeVersion
        writeTags tags
        whenE (!(i && first && !(← getE).canonical && v.isNone && tags.isEmpty))
          (do
            writeIndent
            writeIndicator (lit ['-', '-', '-']) true false false
            whenE (← getE).canonical writeIndent)
        setStateE .documentContent
        modE fun s => { s with openEnded := 0 }) Q s := by
      intro s h
      refine ow_bind (ow_appendTags h fun t n hds => ow_bind (ow_addDefaults plain_defaults n fun t n => ow_bind (ow_getE (ow_bind (ow_when
        ((pen_writeIndicator (by decide)).bind fun _ => pen_writeIndent) n fun t n => ow_bind (ow_modE (ow_bind (ow_pen (m := someE v writeVersion) ?_
          (n.mod (t := { t with openEnded := 0 }) rfl rfl rfl rfl rfl) fun t n => ow_bind (ow_pen (pen_writeTags hds) n fun t n => ow_bind (ow_getE (ow_bind (ow_when ?_ n fun t n =>
            ow_bind (ow_setState n fun t n => ow_modE (hQ _ (n.mod rfl rfl rfl rfl rfl)))))))))))))))
      · cases v with
        | none => exact Pen.pure ()
        | some v => exact pen_writeVersion v
      · exact pen_writeIndent.bind fun _ => (pen_writeIndicator (by decide)).bind fun _ => Pen.getE.bind fun _ => Pen.whenE pen_writeIndent
    cases v with
    | none => exact ow_pure (key s h)
    | some v => exact ow_ite (fun _ => ow_failE h) fun _ => ow_pure (key s h)
  | streamEnd =>
    refine ow_bind (ow_getE (ow_bind (ow_when ?_ h fun t n => ow_bind (ow_opE clean_flush n (ow_setState n hQ)))))
    exact (pen_writeIndicator (by decide)).bind fun _ => Pen.modBind (fun _ => rfl) fun _ => pen_writeIndent
  | _ => exact ow_failE h

theorem ow_documentEnd {e : EvData} (h : Neat s) (hQ : ∀ t, Neat t → Q () t) : ow EOp.Clean Neat (emitDocumentEnd e) Q s := by
  cases e with
  | documentEnd i =>
    refine ow_bind (ow_pen pen_writeIndent h fun t n => ow_bind (ow_pen (m := if !i then do
        writeIndicator dots true false false
        modE fun s => { s with openEnded := 0 }
        writeIndent
      else modE fun s => { s with openEnded := if s.openEnded == 0 then 1 else s.openEnded }) ?_ n fun t n => ow_bind (ow_opE clean_flush n (ow_modE (hQ _ ?_)))))
    · exact Pen.ite (fun _ => (pen_writeIndicator (by decide)).bind fun _ => Pen.modBind (fun _ => rfl) fun _ => pen_writeIndent) fun _ => Pen.modE fun _ => rfl
    · exact ⟨⟨n.tidy.anchor, n.tidy.handle, by simp, n.tidy.scalar⟩, n.low, by simp, n.stack⟩
  | _ => exact ow_failE h

theorem ow_openFlow {c : Nat} (hc : Inked c) (h : Neat s) (hQ : ∀ t, Neat t → Q () t) : ow EOp.Clean Neat (openFlow c) Q s :=
  ow_bind (ow_pen (pen_writeIndicator (by simpa using hc)) h fun t n => ow_bind (ow_increase n fun t n _ => ow_modE (hQ _ (n.mod rfl rfl rfl rfl rfl))))

theorem ow_closeFlow {c : Nat} {first : Bool} (hc : Inked c) (h : Neat s) (hQ : ∀ t, Neat t → Q () t) : ow EOp.Clean Neat (closeFlow c first) Q s := by
  refine ow_bind (ow_modE (ow_bind (ow_popIndent (h.mod rfl rfl rfl rfl rfl) fun t n => ow_bind (ow_getE (ow_bind (ow_when
    ((pen_writeIndicator (by decide)).bind fun _ => pen_writeIndent) n fun t n => ow_bind (ow_pen (pen_writeIndicator (by simpa using hc)) n fun t n => ow_popState n hQ)))))))

theorem ow_flowItem {e : EvData} {first : Bool} (h : Neat s) (hQ : ∀ t, Neat t → Q () t) : ow EOp.Clean Neat (emitFlowSequenceItem e first) Q s := by
  have key : ∀ s : Emitter, Neat s → ow EOp.Clean Neat (if e = .sequenceEnd then closeFlow (c! ']') first
    else do
      whenE (!first) (writeIndicator [c! ','] false false false)
      whenE (← getE).tooWide writeIndent
      pushStateE .flowSequenceItem
      emitNode e false true false false) Q s := fun s h =>
    ow_ite (fun _ => ow_closeFlow (by decide) h hQ) fun _ => ow_bind (ow_when (pen_writeIndicator (by decide)) h fun t n => ow_bind (ow_getE (ow_bind (ow_when pen_writeIndent n
      fun t n => ow_bind (ow_pushState n fun t n => ow_node n hQ)))))
  exact ow_bind (ow_whenE (fun _ => ow_openFlow (by decide) h key) fun _ => key s h)

theorem ow_flowKey {e : EvData} {first : Bool} (h : Neat s) (hQ : ∀ t, Neat t → Q () t) : ow EOp.Clean Neat (emitFlowMappingKey e first) Q s := by
  have key : ∀ s : Emitter, Neat s → ow EOp.Clean Neat (if e = .mappingEnd then closeFlow (c! '}') first
    else do
      whenE (!first) (writeIndicator [c! ','] false false false)
      whenE (← getE).tooWide writeIndent
      if !(← getE).canonical && (← getE).simpleKey then
        pushStateE .flowMappingSimpleValue
        emitNode e false false true true
      else
        writeIndicator [c! '?'] true false false
        pushStateE .flowMappingValue
        emitNode e false false true false) Q s := fun s h =>
    ow_ite (fun _ => ow_closeFlow (by decide) h hQ) fun _ => ow_bind (ow_when (pen_writeIndicator (by decide)) h fun t n => ow_bind (ow_getE (ow_bind (ow_when pen_writeIndent n
      fun t n => ow_bind (ow_getE (ow_bind (ow_getE (ow_ite (fun _ => ow_bind (ow_pushState n fun t n => ow_node n hQ))
        fun _ => ow_bind (ow_pen (pen_writeIndicator (by decide)) n fun t n => ow_bind (ow_pushState n fun t n => ow_node n hQ))))))))))
  exact ow_bind (ow_whenE (fun _ => ow_openFlow (by decide) h key) fun _ => key s h)

theorem ow_flowValue {e : EvData} {simple : Bool} (h : Neat s) (hQ : ∀ t, Neat t → Q () t) : ow EOp.Clean Neat (emitFlowMappingValue e simple) Q s := by
  refine ow_bind (ow_pen (m := if simple then writeIndicator [c! ':'] false false false
    else do
      whenE (← getE).tooWide writeIndent
      writeIndicator [c! ':'] true false false) ?_ h fun t n => ow_bind (ow_pushState n fun t n => ow_node n hQ))
  exact Pen.ite (fun _ => pen_writeIndicator (by decide)) fun _ => Pen.getE.bind fun _ => (Pen.whenE pen_writeIndent).bind fun _ => pen_writeIndicator (by decide)

theorem ow_blockItem {e : EvData} {first : Bool} (h : Neat s) (hQ : ∀ t, Neat t → Q () t) : ow EOp.Clean Neat (emitBlockSequenceItem e first) Q s := by
  have key : ∀ s : Emitter, Neat s → ow EOp.Clean Neat (if e = .sequenceEnd then do
      popIndent
      popStateE
    else do
      writeIndent
      writeIndicator [c! '-'] true false true
      pushStateE .blockSequenceItem
      emitNode e false true false false) Q s := fun s h =>
    ow_ite (fun _ => ow_bind (ow_popIndent h fun t n => ow_popState n hQ)) fun _ => ow_bind (ow_pen pen_writeIndent h fun t n => ow_bind (ow_pen (pen_writeIndicator (by decide)) n
      fun t n => ow_bind (ow_pushState n fun t n => ow_node n hQ)))
  exact ow_bind (ow_whenE (fun _ => ow_bind (ow_getE (ow_bind (ow_getE (ow_increase h fun t n _ => key t n))))) fun _ => key s h)

theorem ow_blockKey {e : EvData} {first : Bool} (h : Neat s) (hQ : ∀ t, Neat t → Q () t) : ow EOp.Clean Neat (emitBlockMappingKey e first) Q s := by
  have key : ∀ s : Emitter, Neat s → ow EOp.Clean Neat (if e = .mappingEnd then do
      popIndent
      popStateE
    else do
      writeIndent
      if (← getE).simpleKey then
        pushStateE .blockMappingSimpleValue
        emitNode e false false true true
      else
        writeIndicator [c! '?'] true false true
        pushStateE .blockMappingValue
        emitNode e false false true false) Q s := fun s h =>
    ow_ite (fun _ => ow_bind (ow_popIndent h fun t n => ow_popState n hQ)) fun _ => ow_bind (ow_pen pen_writeIndent h fun t n => ow_bind (ow_getE (ow_ite
      (fun _ => ow_bind (ow_pushState n fun t n => ow_node n hQ)) fun _ => ow_bind (ow_pen (pen_writeIndicator (by decide)) n
        fun t n => ow_bind (ow_pushState n fun t n => ow_node n hQ)))))
  exact ow_bind (ow_whenE (fun _ => ow_increase h fun t n _ => key t n) fun _ => key s h)

theorem ow_blockValue {e : EvData} {simple : Bool} (h : Neat s) (hQ : ∀ t, Neat t → Q () t) : ow EOp.Clean Neat (emitBlockMappingValue e simple) Q s := by
  refine ow_bind (ow_pen (m := if simple then writeIndicator [c! ':'] false false false
    else do
      writeIndent
      writeIndicator [c! ':'] true false true) ?_ h fun t n => ow_bind (ow_pushState n fun t n => ow_node n hQ))
  exact Pen.ite (fun _ => pen_writeIndicator (by decide)) fun _ => pen_writeIndent.bind fun _ => pen_writeIndicator (by decide)
end

/-! ### Analysis -/

/-- Analysis keeps these. -/
structure Pinned (s t : Emitter) : Prop where
  tidy : Tidy t
  indent : t.bestIndent = s.bestIndent
  state : t.state = s.state
  stack : t.states = s.states

/-- The special characters of a scalar are noticed. -/
theorem loop_special (u : Bool) : ∀ (t : Text) (first : Bool) (f : Flags), (flagLoop u t first f).specialCharacters = false → f.specialCharacters = false ∧ Printable t := by
  intro t
  induction t with
  | nil => intro first f h; exact ⟨h, fun _ h => absurd h List.not_mem_nil⟩
  | cons c cs ih =>
    intro first f h
    have := ih _ _ h
    have h1 := this.1
    have : ∀ (g : Flags) (b b' : Bool), (flagSpaces c b b' (flagSpecial u c (flagIndicators c first (isBlankz (nextC cs)) g))).specialCharacters
        = (g.specialCharacters || (!isPrintable c || (!isAscii c && !u))) := by
      intro g b b'
      unfold flagSpaces flagSpecial flagIndicators
      repeat' split
      all_goals rfl
    simp only [this, Bool.or_eq_false_iff] at h1
    refine ⟨h1.1, fun d hd => ?_⟩
    rcases List.mem_cons.mp hd with rfl | hd
    · simpa using h1.2.1
    · exact (ih _ _ h).2 d hd

theorem analyze_printable (u : Bool) (v : Text) (h : (analyzeScalarData u v).flowPlainAllowed = true ∨ (analyzeScalarData u v).blockPlainAllowed = true ∨
    (analyzeScalarData u v).singleQuotedAllowed = true ∨ (analyzeScalarData u v).blockAllowed = true) : Printable v := by
  unfold analyzeScalarData at h
  split at h
  · rename_i hv
    cases v with
    | nil => exact fun _ h => absurd h List.not_mem_nil
    | cons _ _ => simp at hv
  · unfold scalarData at h
    apply (loop_special u v true { blockIndicators := startsDocument v, flowIndicators := startsDocument v, precededByWhitespace := true } _).2
    show (scalarFlags u v).specialCharacters = false
    revert h
    cases (scalarFlags u v).specialCharacters <;> simp

theorem analyze_text (u : Bool) (v : Text) : (analyzeScalarData u v).value = v := by
  unfold analyzeScalarData
  split <;> rfl


section
variable {s0 s : Emitter} {Q : Unit → Emitter → Prop} {K : EOp → Prop}

theorem ow_analyzeAnchor {a : Text} {b : Bool} (h : Pinned s0 s) (hQ : ∀ t, Pinned s0 t → Q () t) : ow K (Pinned s0) (analyzeAnchor a b) Q s := by
  refine ow_ite (fun _ => ow_failE h) fun _ => ow_ite (fun _ => ow_failE h) fun ha => ow_modE (hQ _ ⟨⟨?_, h.tidy.handle, h.tidy.tags, h.tidy.scalar⟩, h.indent, h.state, h.stack⟩)
  intro x hx c hc
  injection hx with hx
  subst hx
  simp at ha
  exact permitted_alpha (ha c hc)

theorem ow_analyzeTagOf {a : Text} (h : Pinned s0 s) (hQ : ∀ t, Pinned s0 t → Q () t) : ow K (Pinned s0) (analyzeTag a) Q s := by
  refine ow_ite (fun _ => ow_failE h) fun _ => ow_bind (ow_getE ?_)
  cases hf : s.tags.find? fun d => d.fits a with
  | none => exact ow_modE (hQ _ ⟨⟨h.tidy.anchor, h.tidy.handle, h.tidy.tags, h.tidy.scalar⟩, h.indent, h.state, h.stack⟩)
  | some d =>
    refine ow_modE (hQ _ ⟨⟨h.tidy.anchor, ?_, h.tidy.tags, h.tidy.scalar⟩, h.indent, h.state, h.stack⟩)
    intro x hx
    injection hx with hx
    subst hx
    exact h.tidy.tags d (List.mem_of_find?_eq_some hf)

theorem ow_analyzeProps {a t : Option Text} {b : Bool} (h : Pinned s0 s) (hQ : ∀ t, Pinned s0 t → Q () t) : ow K (Pinned s0) (analyzeProps a t b) Q s := by
  have key : ∀ s, Pinned s0 s → ow K (Pinned s0) (whenE b (someE t analyzeTag)) Q s := fun s h => ow_whenE (fun _ => by
    cases t with
    | none => exact ow_pure (hQ _ h)
    | some t => exact ow_analyzeTagOf h hQ) fun _ => hQ s h
  refine ow_bind ?_
  cases a with
  | none => exact ow_pure (key s h)
  | some a => exact ow_analyzeAnchor h key

theorem ow_analyzeEvent {e : EvData} (h : Tidy s) (hQ : ∀ t, Pinned s t → Q () t) : ow K (Pinned s) (analyzeEvent e) Q s := by
  refine ow_bind (ow_modE ?_)
  have h : Pinned s { s with anchor := none, tagHandle := none, tagSuffix := none, scalar := { s.scalar with value := [] } } :=
    ⟨⟨by simp, by simp, h.tags, fun _ _ h => absurd h List.not_mem_nil⟩, rfl, rfl, rfl⟩
  refine ow_bind (ow_getE ?_)
  cases e with
  | alias a => exact ow_analyzeAnchor h hQ
  | scalar a t v p q st =>
    refine ow_bind (ow_analyzeProps h fun t h => ow_modE (hQ _ ⟨⟨h.tidy.anchor, h.tidy.handle, h.tidy.tags, ?_⟩, h.indent, h.state, h.stack⟩))
    intro hx
    have : Printable v := analyze_printable t.unicode v hx
    show Printable (analyzeScalarData t.unicode v).value
    rw [analyze_text]
    exact this
  | sequenceStart a t i st => exact ow_analyzeProps h hQ
  | mappingStart a t i st => exact ow_analyzeProps h hQ
  | _ => exact ow_pure (hQ _ h)
end

/-! ### The machine -/

theorem Neat.pin {s t : Emitter} (h : Neat s) (p : Pinned s t) : Neat t :=
  ⟨p.tidy, p.indent ▸ h.low, p.state ▸ h.began, p.stack ▸ h.stack⟩

/-- Holds between calls: at the beginning of the stream or later. -/
inductive Ledger (s : Emitter) : Prop
  | fresh : Tidy s → s.state = .streamStart → s.states = [] → Ledger s
  | neat : Neat s → Ledger s

theorem Ledger.tidy {s : Emitter} (h : Ledger s) : Tidy s := by
  cases h with
  | fresh h _ _ => exact h
  | neat h => exact h.tidy

theorem Ledger.pin {s t : Emitter} (h : Ledger s) (p : Pinned s t) : Ledger t := by
  cases h with
  | fresh _ h1 h2 => exact .fresh p.tidy (p.state ▸ h1) (p.stack ▸ h2)
  | neat h => exact .neat (h.pin p)

section
variable {s : Emitter} {Q : Unit → Emitter → Prop}

theorem ow_neatStep {e : EvData} (n : Neat s) (k : ∀ t, Neat t → Q () t) : ow EOp.Clean Neat (emitterStep e) Q s := by
  refine ow_bind (ow_getE ?_)
  cases hs : s.state with
  | streamStart => exact absurd hs n.began
  | firstDocumentStart => exact ow_documentStart n k
  | documentStart => exact ow_documentStart n k
  | documentContent => exact ow_bind (ow_pushState n fun t n => ow_node n k)
  | documentEnd => exact ow_documentEnd n k
  | flowSequenceFirstItem => exact ow_flowItem n k
  | flowSequenceItem => exact ow_flowItem n k
  | flowMappingFirstKey => exact ow_flowKey n k
  | flowMappingKey => exact ow_flowKey n k
  | flowMappingSimpleValue => exact ow_flowValue n k
  | flowMappingValue => exact ow_flowValue n k
  | blockSequenceFirstItem => exact ow_blockItem n k
  | blockSequenceItem => exact ow_blockItem n k
  | blockMappingFirstKey => exact ow_blockKey n k
  | blockMappingKey => exact ow_blockKey n k
  | blockMappingSimpleValue => exact ow_blockValue n k
  | blockMappingValue => exact ow_blockValue n k
  | ended => exact ow_failE n

theorem neat_started {enc : Option Enc} (h : Tidy s) (h2 : s.states = []) :
    Neat { ({ s with openEnded := 0 } : Emitter).normalize enc with indent := -1, line := 0, column := 0, whitespace := true, indention := true, state := .firstDocumentStart } := by
  refine ⟨⟨h.anchor, h.handle, h.tags, h.scalar⟩, ?_, by simp, by simp [Emitter.normalize, h2]⟩
  unfold Emitter.normalize
  dsimp only
  split
  · decide
  · omega

theorem ow_streamStart {e : EvData} (h : Tidy s) (h1 : s.state = .streamStart) (h2 : s.states = []) (hQ : ∀ t, Ledger t → Q () t) :
    ow EOp.Marked Ledger (emitStreamStart e) Q s := by
  refine ow_bind (ow_modE ?_)
  cases e with
  | streamStart enc =>
    refine ow_bind (ow_modE (ow_bind (ow_getE (ow_bind ?_))))
    have l : Ledger { ({ s with openEnded := 0 } : Emitter).normalize enc with indent := -1, line := 0, column := 0, whitespace := true, indention := true } :=
      .fresh ⟨h.anchor, h.handle, h.tags, h.scalar⟩ h1 h2
    refine ow_whenE (fun _ => ow_opE (Or.inr rfl) l (ow_modE (hQ _ (.neat (neat_started h h2))))) fun _ => ow_modE (hQ _ (.neat (neat_started h h2)))
  | _ => exact ow_failE (.fresh ⟨h.anchor, h.handle, h.tags, h.scalar⟩ h1 h2)

theorem ow_step {e : EvData} (h : Ledger s) (hQ : ∀ t, Ledger t → Q () t) : ow EOp.Marked Ledger (emitterStep e) Q s := by
  cases h with
  | fresh h h1 h2 =>
    refine ow_bind (ow_getE ?_)
    rw [h1]
    exact ow_streamStart h h1 h2 hQ
  | neat n => exact ow_mono (ow_neatStep (Q := fun _ t => Neat t) n fun _ n => n) (fun _ => Or.inl) (fun _ => Ledger.neat) fun _ t n => hQ t (.neat n)

theorem Neat.queue {es : List EvData} (h : Neat s) : Neat { s with events := es } := h.mod rfl rfl rfl rfl rfl

theorem Ledger.queue {es : List EvData} (h : Ledger s) : Ledger { s with events := es } := by
  cases h with
  | fresh h h1 h2 => exact .fresh ⟨h.anchor, h.handle, h.tags, h.scalar⟩ h1 h2
  | neat h => exact .neat h.queue

theorem ow_neatLoop (n : Nat) (h : Neat s) : ow EOp.Clean Neat (emitLoop n) (fun _ t => Neat t) s := by
  induction n generalizing s with
  | zero => exact ow_pure h
  | succ n ih =>
    refine ow_bind (ow_getE (ow_ite (fun _ => ow_pure h) fun _ => ?_))
    cases s.events with
    | nil => exact ow_pure h
    | cons e es =>
      exact ow_bind (ow_mono (ow_analyzeEvent (Q := fun _ t => Pinned s t) h.tidy fun _ p => p) (fun _ h => h) (fun _ p => h.pin p) fun _ t p =>
        ow_bind (ow_neatStep (h.pin p) fun t h => ow_bind (ow_modE (ih h.queue))))

theorem ow_emitLoop (n : Nat) (h : Ledger s) : ow EOp.Marked Ledger (emitLoop n) (fun _ t => Ledger t) s := by
  induction n generalizing s with
  | zero => exact ow_pure h
  | succ n ih =>
    refine ow_bind (ow_getE (ow_ite (fun _ => ow_pure h) fun _ => ?_))
    cases s.events with
    | nil => exact ow_pure h
    | cons e es =>
      exact ow_bind (ow_mono (ow_analyzeEvent (Q := fun _ t => Pinned s t) h.tidy fun _ p => p) (fun _ h => h) (fun _ p => h.pin p) fun _ t p =>
        ow_bind (ow_step (h.pin p) fun t h => ow_bind (ow_modE (ih h.queue))))

theorem ow_neatEmit (e : EvData) (h : Neat s) : ow EOp.Clean Neat (emit e) (fun _ t => Neat t) s :=
  ow_bind (ow_opE trivial h (ow_bind (ow_modE (ow_bind (ow_getE (ow_neatLoop _ h.queue))))))

theorem ow_emit (e : EvData) (h : Ledger s) : ow EOp.Marked Ledger (emit e) (fun _ t => Ledger t) s :=
  ow_bind (ow_opE (Or.inl trivial) h (ow_bind (ow_modE (ow_bind (ow_getE (ow_emitLoop _ h.queue))))))

theorem ow_neatAll (es : List EvData) (h : Neat s) : ow EOp.Clean Neat (emitAll es) (fun _ t => Neat t) s := by
  induction es generalizing s with
  | nil => exact ow_pure h
  | cons e es ih => exact ow_bind (ow_mono (ow_neatEmit e h) (fun _ h => h) (fun _ h => h) fun _ t h => ih h)

theorem ow_emitAll (es : List EvData) (h : Ledger s) : ow EOp.Marked Ledger (emitAll es) (fun _ t => Ledger t) s := by
  induction es generalizing s with
  | nil => exact ow_pure h
  | cons e es ih => exact ow_bind (ow_mono (ow_emit e h) (fun _ h => h) (fun _ h => h) fun _ t h => ih h)
end

end LibYaml
