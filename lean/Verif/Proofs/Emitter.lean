import Verif.Model.Emitter

/-! Basic lemmas on emitter computations; the writers do not touch the structure of the emitter. -/

namespace LibYaml

/-- Every outcome of `m` from `s` is a success satisfying `Q` or a failure satisfying `E`. -/
def ewp {α : Type} (m : EM α) (Q : α → Emitter → Prop) (E : EFail → Emitter → Prop) (s : Emitter) : Prop :=
  match (m s).val with
  | .ok a => Q a (m s).st
  | .error e => E e (m s).st

section
variable {α β : Type} {Q : β → Emitter → Prop} {E : EFail → Emitter → Prop} {s : Emitter}

theorem ewp_bind {m : EM α} {k : α → EM β} : ewp (m >>= k) Q E s ↔ ewp m (fun a s' => ewp (k a) Q E s') E s := by
  show ewp (EM.bind m k) Q E s ↔ _
  unfold ewp EM.bind
  cases (m s).val with
  | error e => exact Iff.rfl
  | ok a => exact Iff.rfl

theorem ewp_pure {b : β} : ewp (pure b) Q E s ↔ Q b s := Iff.rfl
theorem ewp_getE {Q : Emitter → Emitter → Prop} : ewp getE Q E s ↔ Q s s := Iff.rfl
theorem ewp_modE {f : Emitter → Emitter} {Q : Unit → Emitter → Prop} : ewp (modE f) Q E s ↔ Q () (f s) := Iff.rfl
theorem ewp_opE {op : EOp} {Q : Unit → Emitter → Prop} : ewp (opE op) Q E s ↔ Q () s := Iff.rfl
theorem ewp_failE {p : String} : ewp (failE p) Q E s ↔ E (.emitter p) s := Iff.rfl
theorem ewp_whenE {b : Bool} {m : EM Unit} {Q : Unit → Emitter → Prop} :
    ewp (whenE b m) Q E s ↔ if b = true then ewp m Q E s else Q () s := by
  cases b <;> exact Iff.rfl
theorem ewp_ite {c : Prop} [Decidable c] {m n : EM β} :
    ewp (if c then m else n) Q E s ↔ if c then ewp m Q E s else ewp n Q E s := by
  by_cases h : c
  · rw [if_pos h, if_pos h]
  · rw [if_neg h, if_neg h]

theorem ewp_mono {m : EM α} {Q Q' : α → Emitter → Prop} {E E' : EFail → Emitter → Prop} (h : ewp m Q E s)
    (hQ : ∀ a s', Q a s' → Q' a s') (hE : ∀ e s', E e s' → E' e s') : ewp m Q' E' s := by
  unfold ewp at *
  split <;> rename_i heq <;> rw [heq] at h
  · exact hQ _ _ h
  · exact hE _ _ h
end

/-- `t` differs from `s` at most in the position of the output and the flags about the last character. -/
def Kin (s t : Emitter) : Prop :=
  t = { s with line := t.line, column := t.column, whitespace := t.whitespace, indention := t.indention,
               openEnded := t.openEnded }

theorem Kin.refl (s : Emitter) : Kin s s := rfl

theorem Kin.trans {s t u : Emitter} (h : Kin s t) (k : Kin t u) : Kin s u := by
  unfold Kin at *
  rw [h] at k
  exact k

/-- Always succeeds and leaves the structure alone. -/
def Quiet {α : Type} (m : EM α) : Prop := ∀ s, ∃ a, (m s).val = .ok a ∧ Kin s (m s).st

section
variable {α β : Type}

theorem Quiet.bind {m : EM α} {k : α → EM β} (hm : Quiet m) (hk : ∀ a, Quiet (k a)) : Quiet (m >>= k) := by
  intro s
  obtain ⟨a, ha, h1⟩ := hm s
  obtain ⟨b, hb, h2⟩ := hk a (m s).st
  show ∃ b, (EM.bind m k s).val = .ok b ∧ Kin s (EM.bind m k s).st
  unfold EM.bind
  rw [ha]
  exact ⟨b, hb, h1.trans h2⟩

theorem Quiet.pure (a : α) : Quiet (pure a : EM α) := fun s => ⟨a, rfl, Kin.refl s⟩
theorem Quiet.getE : Quiet getE := fun s => ⟨s, rfl, Kin.refl s⟩
theorem Quiet.opE (op : EOp) : Quiet (opE op) := fun s => ⟨(), rfl, Kin.refl s⟩
theorem Quiet.modE {f : Emitter → Emitter} (h : ∀ s, Kin s (f s)) : Quiet (modE f) := fun s => ⟨(), rfl, h s⟩
theorem Quiet.modBind {f : Emitter → Emitter} {k : Unit → EM α} (h : ∀ s, Kin s (f s)) (hk : ∀ a, Quiet (k a)) :
    Quiet (LibYaml.modE f >>= k) := (Quiet.modE h).bind hk
theorem Quiet.whenE {b : Bool} {m : EM Unit} (h : Quiet m) : Quiet (whenE b m) := by
  cases b
  · exact Quiet.pure ()
  · exact h
theorem Quiet.ite {c : Prop} [Decidable c] {m n : EM α} (hm : Quiet m) (hn : Quiet n) : Quiet (if c then m else n) := by
  split
  · exact hm
  · exact hn

/-- Use of a quiet computation. -/
theorem Quiet.ewp {m : EM α} {Q : α → Emitter → Prop} {E : EFail → Emitter → Prop} {s : Emitter} (h : Quiet m)
    (hQ : ∀ a t, Kin s t → Q a t) : ewp m Q E s := by
  obtain ⟨a, ha, hk⟩ := h s
  unfold LibYaml.ewp
  rw [ha]
  exact hQ _ _ hk
end

theorem quiet_outE (cs : Text) : Quiet (outE cs) := Quiet.opE _

theorem quiet_putC (c : Nat) : Quiet (putC c) := by
  unfold putC; exact (quiet_outE _).bind fun _ => Quiet.modE fun _ => rfl

theorem quiet_putBreak : Quiet putBreak := by
  unfold putBreak
  exact Quiet.getE.bind fun _ => (quiet_outE _).bind fun _ => Quiet.modE fun _ => rfl

theorem quiet_writeBreak (c : Nat) : Quiet (writeBreak c) := by
  unfold writeBreak
  exact Quiet.ite quiet_putBreak ((quiet_outE _).bind fun _ => Quiet.modE fun _ => rfl)

theorem quiet_writeAll (t : Text) : Quiet (writeAll t) := by
  induction t with
  | nil => exact Quiet.pure _
  | cons c cs ih => exact (quiet_putC c).bind fun _ => ih

theorem quiet_setWs (w i : Bool) : Quiet (setWs w i) := Quiet.modE fun _ => rfl

theorem quiet_putSpaces (n : Nat) : Quiet (putSpaces n) := by
  induction n with
  | zero => exact Quiet.pure _
  | succ n ih => exact (quiet_putC _).bind fun _ => ih

theorem quiet_writeIndent : Quiet writeIndent := by
  have h1 := quiet_putBreak
  unfold writeIndent
  exact Quiet.getE.bind fun _ => (Quiet.whenE h1).bind fun _ => Quiet.getE.bind fun _ => Quiet.getE.bind fun _ =>
    (quiet_putSpaces _).bind fun _ => quiet_setWs _ _

theorem quiet_writeIndicator (t : Text) (a b c : Bool) : Quiet (writeIndicator t a b c) := by
  unfold writeIndicator
  exact Quiet.getE.bind fun _ => (Quiet.whenE (quiet_putC _)).bind fun _ => (quiet_writeAll _).bind fun _ =>
    Quiet.modE fun _ => rfl

theorem quiet_writeAnchor (t : Text) : Quiet (writeAnchor t) :=
  (quiet_writeAll _).bind fun _ => quiet_setWs _ _

theorem quiet_writeTagHandle (t : Text) : Quiet (writeTagHandle t) :=
  Quiet.getE.bind fun _ => (Quiet.whenE (quiet_putC _)).bind fun _ => (quiet_writeAll _).bind fun _ => quiet_setWs _ _

theorem quiet_writeEscapes (bs : List UInt8) : Quiet (writeEscapes bs) := by
  induction bs with
  | nil => exact Quiet.pure _
  | cons b bs ih =>
    exact (quiet_putC _).bind fun _ => (quiet_putC _).bind fun _ => (quiet_putC _).bind fun _ => ih

theorem quiet_writeTagChars (t : Text) : Quiet (writeTagChars t) := by
  induction t with
  | nil => exact Quiet.pure _
  | cons c cs ih =>
    unfold writeTagChars
    exact (Quiet.ite (quiet_putC _) (quiet_writeEscapes _)).bind fun _ => ih

theorem quiet_writeTagContent (t : Text) (b : Bool) : Quiet (writeTagContent t b) :=
  Quiet.getE.bind fun _ => (Quiet.whenE (quiet_putC _)).bind fun _ => (quiet_writeTagChars _).bind fun _ => quiet_setWs _ _

theorem quiet_plainLoop (ab : Bool) (t : Text) (sp br : Bool) : Quiet (plainLoop ab t sp br) := by
  induction t generalizing sp br with
  | nil => exact Quiet.pure _
  | cons c cs ih =>
    unfold plainLoop
    refine Quiet.ite ?_ (Quiet.ite ?_ ?_)
    · exact Quiet.getE.bind fun _ => (Quiet.ite quiet_writeIndent (quiet_putC _)).bind fun _ => ih _ _
    · exact (Quiet.whenE quiet_putBreak).bind fun _ => (quiet_writeBreak _).bind fun _ =>
        Quiet.modBind (fun _ => rfl) fun _ => ih _ _
    · exact (Quiet.whenE quiet_writeIndent).bind fun _ => (quiet_putC _).bind fun _ =>
        Quiet.modBind (fun _ => rfl) fun _ => ih _ _

theorem quiet_writePlain (t : Text) (b : Bool) : Quiet (writePlain t b) :=
  Quiet.getE.bind fun _ => (Quiet.whenE (quiet_putC _)).bind fun _ => (quiet_plainLoop _ _ _ _).bind fun _ => quiet_setWs _ _

theorem quiet_singleLoop (ab : Bool) (t : Text) (fi sp br : Bool) : Quiet (singleLoop ab t fi sp br) := by
  induction t generalizing fi sp br with
  | nil => exact Quiet.pure _
  | cons c cs ih =>
    unfold singleLoop
    refine Quiet.ite ?_ (Quiet.ite ?_ ?_)
    · exact Quiet.getE.bind fun _ => (Quiet.ite quiet_writeIndent (quiet_putC _)).bind fun _ => ih _ _ _
    · exact (Quiet.whenE quiet_putBreak).bind fun _ => (quiet_writeBreak _).bind fun _ =>
        Quiet.modBind (fun _ => rfl) fun _ => ih _ _ _
    · exact (Quiet.whenE quiet_writeIndent).bind fun _ => (Quiet.whenE (quiet_putC _)).bind fun _ =>
        (quiet_putC _).bind fun _ => Quiet.modBind (fun _ => rfl) fun _ => ih _ _ _

theorem quiet_writeSingle (t : Text) (b : Bool) : Quiet (writeSingle t b) :=
  (quiet_writeIndicator _ _ _ _).bind fun _ => (quiet_singleLoop _ _ _ _ _).bind fun _ =>
    (Quiet.whenE quiet_writeIndent).bind fun _ => (quiet_writeIndicator _ _ _ _).bind fun _ => quiet_setWs _ _

theorem quiet_doubleLoop (ab : Bool) (t : Text) (fi sp : Bool) : Quiet (doubleLoop ab t fi sp) := by
  induction t generalizing fi sp with
  | nil => exact Quiet.pure _
  | cons c cs ih =>
    unfold doubleLoop
    refine Quiet.getE.bind fun _ => Quiet.ite ?_ (Quiet.ite ?_ ?_)
    · exact (quiet_putC _).bind fun _ => (quiet_writeAll _).bind fun _ => ih _ _
    · exact (Quiet.ite (quiet_writeIndent.bind fun _ => Quiet.whenE (quiet_putC _)) (quiet_putC _)).bind fun _ => ih _ _
    · exact (quiet_putC _).bind fun _ => ih _ _

theorem quiet_writeDouble (t : Text) (b : Bool) : Quiet (writeDouble t b) :=
  (quiet_writeIndicator _ _ _ _).bind fun _ => (quiet_doubleLoop _ _ _ _).bind fun _ =>
    (quiet_writeIndicator _ _ _ _).bind fun _ => quiet_setWs _ _

theorem quiet_writeHints (t : Text) : Quiet (writeHints t) :=
  (Quiet.whenE (Quiet.getE.bind fun _ => quiet_writeIndicator _ _ _ _)).bind fun _ =>
    Quiet.modBind (fun _ => rfl) fun _ => Quiet.whenE (quiet_writeIndicator _ _ _ _)

theorem quiet_literalLoop (t : Text) (br : Bool) : Quiet (literalLoop t br) := by
  induction t generalizing br with
  | nil => exact Quiet.pure _
  | cons c cs ih =>
    unfold literalLoop
    refine Quiet.ite ?_ ?_
    · exact (quiet_writeBreak _).bind fun _ => Quiet.modBind (fun _ => rfl) fun _ => ih _
    · exact (Quiet.whenE quiet_writeIndent).bind fun _ => (quiet_putC _).bind fun _ =>
        Quiet.modBind (fun _ => rfl) fun _ => ih _

theorem quiet_writeLiteral (t : Text) : Quiet (writeLiteral t) :=
  (quiet_writeIndicator _ _ _ _).bind fun _ => (quiet_writeHints _).bind fun _ => quiet_putBreak.bind fun _ =>
    (quiet_setWs _ _).bind fun _ => quiet_literalLoop _ _

theorem quiet_foldedLoop (t : Text) (br ls : Bool) : Quiet (foldedLoop t br ls) := by
  induction t generalizing br ls with
  | nil => exact Quiet.pure _
  | cons c cs ih =>
    unfold foldedLoop
    refine Quiet.ite ?_ ?_
    · exact (Quiet.whenE quiet_putBreak).bind fun _ => (quiet_writeBreak _).bind fun _ =>
        Quiet.modBind (fun _ => rfl) fun _ => ih _ _
    · exact (Quiet.whenE quiet_writeIndent).bind fun _ => Quiet.getE.bind fun _ =>
        (Quiet.ite quiet_writeIndent (quiet_putC _)).bind fun _ => Quiet.modBind (fun _ => rfl) fun _ => ih _ _

theorem quiet_writeFolded (t : Text) : Quiet (writeFolded t) :=
  (quiet_writeIndicator _ _ _ _).bind fun _ => (quiet_writeHints _).bind fun _ => quiet_putBreak.bind fun _ =>
    (quiet_setWs _ _).bind fun _ => quiet_foldedLoop _ _ _

theorem quiet_processAnchor : Quiet processAnchor := by
  refine Quiet.getE.bind fun s => ?_
  cases s.anchor with
  | none => exact Quiet.pure _
  | some a => exact (quiet_writeIndicator _ _ _ _).bind fun _ => quiet_writeAnchor _

theorem quiet_processTag : Quiet processTag := by
  refine Quiet.getE.bind fun s => ?_
  cases s.tagHandle with
  | none =>
    cases s.tagSuffix with
    | none => exact Quiet.pure _
    | some x =>
      exact (quiet_writeIndicator _ _ _ _).bind fun _ => (quiet_writeTagContent _ _).bind fun _ =>
        quiet_writeIndicator _ _ _ _
  | some h =>
    cases s.tagSuffix with
    | none => exact quiet_writeTagHandle _
    | some x => exact (quiet_writeTagHandle _).bind fun _ => quiet_writeTagContent _ _

theorem quiet_writeVersion (v : Version) : Quiet (writeVersion v) :=
  (quiet_writeIndicator _ _ _ _).bind fun _ => (quiet_writeIndicator _ _ _ _).bind fun _ => quiet_writeIndent

theorem quiet_writeTags (ds : List TagDir) : Quiet (writeTags ds) := by
  induction ds with
  | nil => exact Quiet.pure _
  | cons d ds ih =>
    exact (quiet_writeIndicator _ _ _ _).bind fun _ => (quiet_writeTagHandle _).bind fun _ =>
      (quiet_writeTagContent _ _).bind fun _ => quiet_writeIndent.bind fun _ => ih

theorem quiet_writeBom : Quiet writeBom := Quiet.opE _

/-- Writing the scalar: quiet unless no style was chosen. -/
theorem ewp_processScalar {Q : Unit → Emitter → Prop} {E : EFail → Emitter → Prop} {s : Emitter}
    (hs : s.scalar.style ≠ .any) (hQ : ∀ t, Kin s t → Q () t) : ewp processScalar Q E s := by
  unfold processScalar
  rw [ewp_bind, ewp_getE]
  have hQ' : ∀ (a : Unit) t, Kin s t → Q a t := fun _ => hQ
  cases h : s.scalar.style with
  | any => exact absurd h hs
  | plain => exact (quiet_writePlain _ _).ewp hQ'
  | single => exact (quiet_writeSingle _ _).ewp hQ'
  | double => exact (quiet_writeDouble _ _).ewp hQ'
  | literal => exact (quiet_writeLiteral _).ewp hQ'
  | folded => exact (quiet_writeFolded _).ewp hQ'

end LibYaml
