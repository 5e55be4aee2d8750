import Verif.Proofs.EmitterRun

/-! Writers that stay on the line; what the analysis knows about line breaks. -/

namespace LibYaml

/-- The line number stays. -/
def OneLine {α : Type} (m : EM α) : Prop := ∀ s, (m s).st.line = s.line

section
variable {α β : Type}

theorem OneLine.bind {m : EM α} {k : α → EM β} (hm : OneLine m) (hk : ∀ a, OneLine (k a)) : OneLine (m >>= k) := by
  intro s
  show (EM.bind m k s).st.line = s.line
  unfold EM.bind
  cases h : (m s).val with
  | error e => exact hm s
  | ok a => exact (hk a _).trans (hm s)

theorem OneLine.pure (a : α) : OneLine (pure a : EM α) := fun _ => rfl
theorem OneLine.getE : OneLine getE := fun _ => rfl
theorem OneLine.modE {f : Emitter → Emitter} (h : ∀ s, (f s).line = s.line) : OneLine (modE f) := h
theorem OneLine.opE (op : EOp) : OneLine (opE op) := fun _ => rfl
theorem OneLine.modBind {f : Emitter → Emitter} {k : Unit → EM α} (h : ∀ s, (f s).line = s.line) (hk : ∀ a, OneLine (k a)) :
    OneLine (LibYaml.modE f >>= k) := OneLine.bind h hk
theorem OneLine.whenE {b : Bool} {m : EM Unit} (h : b = true → OneLine m) : OneLine (whenE b m) := by
  cases b
  · exact OneLine.pure ()
  · exact h rfl
theorem OneLine.ite {c : Prop} [Decidable c] {m n : EM α} (hm : c → OneLine m) (hn : ¬ c → OneLine n) :
    OneLine (if c then m else n) := by
  split
  · exact hm (by assumption)
  · exact hn (by assumption)
end

theorem oneLine_putC (c : Nat) : OneLine (putC c) := by
  unfold putC outE; exact (OneLine.opE _).bind fun _ => OneLine.modE fun _ => rfl

theorem oneLine_writeAll (t : Text) : OneLine (writeAll t) := by
  induction t with
  | nil => exact OneLine.pure _
  | cons c cs ih => exact (oneLine_putC c).bind fun _ => ih

theorem oneLine_writeIndicator (t : Text) (a b c : Bool) : OneLine (writeIndicator t a b c) := by
  unfold writeIndicator
  exact OneLine.getE.bind fun _ => (OneLine.whenE fun _ => oneLine_putC _).bind fun _ => (oneLine_writeAll _).bind fun _ =>
    OneLine.modE fun _ => rfl

theorem oneLine_plainLoop {cs : Text} (h : cs.any isBreak = false) : ∀ sp, OneLine (plainLoop false cs sp false) := by
  induction cs with
  | nil => intro sp; exact OneLine.pure _
  | cons c cs ih =>
    intro sp
    rw [List.any_cons, Bool.or_eq_false_iff] at h
    unfold plainLoop
    refine OneLine.ite (fun _ => OneLine.getE.bind fun s => ?_) fun _ => OneLine.ite (fun hb => ?_) fun _ => ?_
    · refine OneLine.bind ?_ fun _ => ih h.2 _
      exact OneLine.ite (fun hx => by simp at hx) fun _ => oneLine_putC _
    · rw [h.1] at hb; cases hb
    · refine (OneLine.whenE fun h => by cases h).bind fun _ => (oneLine_putC _).bind fun _ =>
        OneLine.modBind (fun _ => rfl) fun _ => ih h.2 _

/-- The result, whatever the state. -/
def Gives {α : Type} (m : EM α) (a : α) : Prop := ∀ s, (m s).val = .ok a

theorem Gives.bind {α β : Type} {m : EM α} {k : α → EM β} {b : β} (hq : Quiet m) (hk : ∀ a, Gives (k a) b) :
    Gives (m >>= k) b := by
  intro s
  obtain ⟨a, ha, _⟩ := hq s
  show (EM.bind m k s).val = _
  unfold EM.bind
  rw [ha]
  exact hk a _

theorem gives_singleLoop {cs : Text} (h : cs.any isBreak = false) : ∀ f sp, Gives (singleLoop false cs f sp false) false := by
  induction cs with
  | nil => intro f sp s; rfl
  | cons c cs ih =>
    intro f sp
    rw [List.any_cons, Bool.or_eq_false_iff] at h
    unfold singleLoop
    split
    · exact Gives.bind Quiet.getE fun _ => Gives.bind (Quiet.ite quiet_writeIndent (quiet_putC _)) fun _ => ih h.2 _ _
    · split
      · rename_i hb; rw [h.1] at hb; cases hb
      · refine Gives.bind (Quiet.whenE quiet_writeIndent) fun _ => Gives.bind (Quiet.whenE (quiet_putC _)) fun _ =>
          Gives.bind (quiet_putC _) fun _ => Gives.bind (Quiet.modE fun _ => rfl) fun _ => ih h.2 _ _

theorem oneLine_singleLoop {cs : Text} (h : cs.any isBreak = false) : ∀ f sp, OneLine (singleLoop false cs f sp false) := by
  induction cs with
  | nil => intro f sp; exact OneLine.pure _
  | cons c cs ih =>
    intro f sp
    rw [List.any_cons, Bool.or_eq_false_iff] at h
    unfold singleLoop
    refine OneLine.ite (fun _ => OneLine.getE.bind fun s => ?_) fun _ => OneLine.ite (fun hb => ?_) fun _ => ?_
    · refine OneLine.bind ?_ fun _ => ih h.2 _ _
      exact OneLine.ite (fun hx => by simp at hx) fun _ => oneLine_putC _
    · rw [h.1] at hb; cases hb
    · refine (OneLine.whenE fun h => by cases h).bind fun _ => (OneLine.whenE fun _ => oneLine_putC _).bind fun _ =>
        (oneLine_putC _).bind fun _ => OneLine.modBind (fun _ => rfl) fun _ => ih h.2 _ _

theorem oneLine_doubleLoop {cs : Text} : ∀ f sp, OneLine (doubleLoop false cs f sp) := by
  induction cs with
  | nil => intro f sp; exact OneLine.pure _
  | cons c cs ih =>
    intro f sp
    unfold doubleLoop
    refine OneLine.getE.bind fun s => OneLine.ite (fun _ => ?_) fun _ => OneLine.ite (fun _ => ?_) fun _ => ?_
    · exact (oneLine_putC _).bind fun _ => (oneLine_writeAll _).bind fun _ => ih _ _
    · refine OneLine.bind ?_ fun _ => ih _ _
      exact OneLine.ite (fun hx => by simp at hx) fun _ => oneLine_putC _
    · exact (oneLine_putC _).bind fun _ => ih _ _

theorem oneLine_writePlain {v : Text} (h : v.any isBreak = false) : OneLine (writePlain v false) := by
  unfold writePlain
  exact OneLine.getE.bind fun _ => (OneLine.whenE fun _ => oneLine_putC _).bind fun _ => (oneLine_plainLoop h _).bind fun _ =>
    OneLine.modE fun _ => rfl

theorem oneLine_writeSingle {v : Text} (h : v.any isBreak = false) : OneLine (writeSingle v false) := by
  unfold writeSingle
  refine (oneLine_writeIndicator _ _ _ _).bind fun _ => ?_
  have hk : OneLine (do
      whenE false writeIndent
      writeIndicator [c! '\''] false false false
      setWs false false) :=
    OneLine.bind (OneLine.pure ()) fun _ => (oneLine_writeIndicator _ _ _ _).bind fun _ => OneLine.modE fun _ => rfl
  intro s
  show (EM.bind _ _ s).st.line = s.line
  unfold EM.bind
  rw [gives_singleLoop h true false s]
  exact (hk _).trans (oneLine_singleLoop h true false s)

theorem oneLine_writeDouble (v : Text) : OneLine (writeDouble v false) := by
  unfold writeDouble
  exact (oneLine_writeIndicator _ _ _ _).bind fun _ => (oneLine_doubleLoop _ _).bind fun _ =>
    (oneLine_writeIndicator _ _ _ _).bind fun _ => OneLine.modE fun _ => rfl

/-! ### The flags about breaks -/

theorem flagIndicators_lineBreaks (c : Nat) (a b : Bool) (f : Flags) : (flagIndicators c a b f).lineBreaks = f.lineBreaks := by
  unfold flagIndicators; split <;> rfl

theorem flagSpaces_lineBreaks (c : Nat) (a b : Bool) (f : Flags) : (flagSpaces c a b f).lineBreaks = f.lineBreaks := by
  unfold flagSpaces; split
  · rfl
  · split <;> rfl

theorem flagLoop_lineBreaks (u : Bool) (cs : Text) : ∀ first f,
    (flagLoop u cs first f).lineBreaks = (f.lineBreaks || cs.any isBreak) := by
  induction cs with
  | nil => intro first f; simp [flagLoop]
  | cons c cs ih =>
    intro first f
    unfold flagLoop
    dsimp only
    rw [ih]
    dsimp only
    rw [flagSpaces_lineBreaks]
    unfold flagSpecial
    dsimp only
    rw [flagIndicators_lineBreaks, List.any_cons, Bool.or_assoc]

theorem analyze_multiline (u : Bool) (v : Text) : (analyzeScalarData u v).multiline = v.any isBreak := by
  unfold analyzeScalarData
  split
  · rename_i h
    rw [List.isEmpty_iff.mp h]; rfl
  · unfold scalarData scalarFlags
    dsimp only
    rw [flagLoop_lineBreaks]; rfl

theorem analyze_value (u : Bool) (v : Text) : (analyzeScalarData u v).value = v := by
  unfold analyzeScalarData
  split <;> rfl

end LibYaml
