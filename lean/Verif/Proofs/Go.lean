import Verif.Model.Scanner
import Verif.Proofs.Prog
import Verif.Model.Emitter

/-!
# Programs over a list of characters that is entirely buffered

`Prog.go` forgets how many characters have been requested. Where the interpretation over requested input (`Prog.run`) has no fault, both
agree (`go_of_run`). `lw` is total correctness for this interpretation.
-/

namespace LibYaml

/-- Interpretation over the characters that are left. -/
def Prog.go {α : Type} : Prog α → Text → Except Fail (α × Text)
  | .ret a, cs => .ok (a, cs)
  | .fail e, _ => .error e
  | .cache n k, cs => if maxLookahead < n then .error .ub else k.go cs
  | .look j k, cs =>
    if (cs.take j).all (· < 0x80) then
      match cs[j]? with
      | some c => (k c).go cs
      | none => .error .ub
    else .error .ub
  | .skip k, cs =>
    match cs with
    | [] => .error .ub
    | _ :: cs => k.go cs

/-- The result of a run without the requested amount. -/
def forget {α : Type} : Except Fail (α × In) → Except Fail (α × Text)
  | .ok (a, i) => .ok (a, i.cs)
  | .error e => .error e

/-- A run on good input without fault gives what `go` gives. -/
theorem go_of_run {α : Type} (p : Prog α) (i : In) (hb : i.bad = none) (h : p.run i ≠ .error .ub) : p.go i.cs = forget (p.run i) := by
  induction p generalizing i with
  | ret a => rfl
  | fail e => rfl
  | cache n k ih =>
    unfold Prog.run at h ⊢
    unfold Prog.go
    unfold In.cache at h ⊢
    by_cases h1 : maxLookahead < n
    · rw [if_pos h1] at h; exact absurd rfl h
    rw [if_neg h1] at h ⊢
    rw [if_neg h1]
    by_cases h2 : n ≤ i.avail
    · rw [if_pos h2] at h ⊢; exact ih i hb h
    rw [if_neg h2] at h ⊢
    by_cases h3 : n ≤ i.cs.length
    · rw [if_pos h3] at h ⊢; exact ih { i with avail := n } hb h
    rw [if_neg h3] at h ⊢
    obtain ⟨ics, iav, ibad⟩ := i
    dsimp only at hb
    subst hb
    exact ih { cs := ics, avail := ics.length, bad := none } rfl h
  | look j k ih =>
    unfold Prog.run at h ⊢
    unfold Prog.go
    unfold In.look at h ⊢
    by_cases h1 : j < i.avail ∧ (i.cs.take j).all (· < 0x80) = true
    · rw [if_pos h1] at h ⊢
      rw [if_pos h1.2]
      cases hc : i.cs[j]? with
      | none => rw [hc] at h; exact absurd rfl h
      | some c => rw [hc] at h; exact ih c i hb h
    · rw [if_neg h1] at h; exact absurd rfl h
  | skip k ih =>
    unfold Prog.run at h ⊢
    unfold Prog.go
    unfold In.skip at h ⊢
    cases hcs : i.cs with
    | nil => rw [hcs] at h; exact absurd rfl h
    | cons c r =>
      rw [hcs] at h
      dsimp only at h ⊢
      by_cases h1 : i.avail = 0
      · rw [if_pos h1] at h; exact absurd rfl h
      · rw [if_neg h1] at h ⊢
        exact ih { i with cs := r, avail := i.avail - 1 } hb h

theorem go_bind {α β : Type} (p : Prog α) (f : α → Prog β) (cs : Text) :
    (p.bind f).go cs = match p.go cs with
      | .ok (a, cs) => (f a).go cs
      | .error e => .error e := by
  induction p generalizing cs with
  | ret a => rfl
  | fail e => rfl
  | cache n k ih =>
    simp only [Prog.bind, Prog.go]
    split
    · rfl
    · exact ih cs
  | look j k ih =>
    simp only [Prog.bind, Prog.go]
    split
    · cases cs[j]? with
      | none => rfl
      | some c => exact ih c cs
    · rfl
  | skip k ih =>
    simp only [Prog.bind, Prog.go]
    cases cs with
    | nil => rfl
    | cons c r => exact ih r

/-- `p` succeeds with a result satisfying `Q`. -/
def lw {σ α : Type} (p : StateT σ Prog α) (Q : α → σ → Text → Prop) (s : σ) (cs : Text) : Prop :=
  match (p s).go cs with
  | .ok ((a, s'), cs') => Q a s' cs'
  | .error _ => False

section rules
variable {σ α β : Type} {s : σ} {cs : Text}

theorem lw_bind {p : StateT σ Prog α} {f : α → StateT σ Prog β} {Q : β → σ → Text → Prop} :
    lw (p >>= f) Q s cs ↔ lw p (fun a s' cs' => lw (f a) Q s' cs') s cs := by
  unfold lw
  have : (p >>= f) s = (p s).bind fun x => f x.1 x.2 := rfl
  rw [this, go_bind]
  cases (p s).go cs with
  | error e => exact Iff.rfl
  | ok x => exact Iff.rfl

theorem lw_pure {a : α} {Q : α → σ → Text → Prop} : lw (pure a) Q s cs ↔ Q a s cs := Iff.rfl

theorem lw_get {Q : σ → σ → Text → Prop} : lw (get : StateT σ Prog σ) Q s cs ↔ Q s s cs := Iff.rfl

theorem lw_mono {p : StateT σ Prog α} {Q Q' : α → σ → Text → Prop} (h : lw p Q s cs) (hQ : ∀ a s' cs', Q a s' cs' → Q' a s' cs') :
    lw p Q' s cs := by
  unfold lw at *
  split <;> rename_i heq <;> rw [heq] at h
  · exact hQ _ _ _ h
  · exact h

theorem lw_ite {c : Prop} [Decidable c] {p q : StateT σ Prog α} {Q : α → σ → Text → Prop} :
    lw (if c then p else q) Q s cs ↔ if c then lw p Q s cs else lw q Q s cs := by
  by_cases h : c
  · rw [if_pos h, if_pos h]
  · rw [if_neg h, if_neg h]

/-- What `lw` says about the result. -/
theorem lw_iff {p : StateT σ Prog α} {Q : α → σ → Text → Prop} :
    lw p Q s cs ↔ ∃ a s' cs', (p s).go cs = .ok ((a, s'), cs') ∧ Q a s' cs' := by
  unfold lw
  split
  · rename_i a s' cs' heq
    exact ⟨fun h => ⟨a, s', cs', heq, h⟩, fun ⟨_, _, _, h1, h2⟩ => by rw [heq] at h1; cases h1; exact h2⟩
  · rename_i e heq
    exact ⟨fun h => h.elim, fun ⟨_, _, _, h1, _⟩ => by rw [heq] at h1; cases h1⟩

end rules

variable {m : Mark} {cs r : Text} {c d : Nat}

theorem lw_cache {n : Nat} {Q : Unit → Mark → Text → Prop} (hn : n ≤ 6144) : lw (cacheC n) Q m cs ↔ Q () m cs := by
  unfold lw cacheC
  simp only [Prog.go]
  rw [if_neg (by unfold maxLookahead; omega)]

theorem lw_cache1 {Q : Unit → Mark → Text → Prop} : lw (cacheC 1) Q m cs ↔ Q () m cs := lw_cache (by omega)
theorem lw_cache2 {Q : Unit → Mark → Text → Prop} : lw (cacheC 2) Q m cs ↔ Q () m cs := lw_cache (by omega)
theorem lw_cache3 {Q : Unit → Mark → Text → Prop} : lw (cacheC 3) Q m cs ↔ Q () m cs := lw_cache (by omega)
theorem lw_cache4 {Q : Unit → Mark → Text → Prop} : lw (cacheC 4) Q m cs ↔ Q () m cs := lw_cache (by omega)

theorem lw_peekAt {pre : Text} {j : Nat} {Q : Nat → Mark → Text → Prop} (hj : pre.length = j) (hp : ∀ x ∈ pre, x < 0x80) :
    lw (peekC j) Q m (pre ++ c :: r) ↔ Q c m (pre ++ c :: r) := by
  unfold lw peekC
  simp only [Prog.go]
  subst hj
  have h1 : ((pre ++ c :: r).take pre.length).all (· < 0x80) = true := by
    rw [List.take_left']
    · exact List.all_eq_true.mpr fun x hx => by simpa using hp x hx
    · rfl
  rw [if_pos h1]
  have h2 : (pre ++ c :: r)[pre.length]? = some c := by simp
  rw [h2]

theorem lw_peek0 {Q : Nat → Mark → Text → Prop} : lw (peekC 0) Q m (c :: r) ↔ Q c m (c :: r) :=
  lw_peekAt (pre := []) rfl (by simp)

theorem lw_peek1 {Q : Nat → Mark → Text → Prop} (hc : c < 0x80) : lw (peekC 1) Q m (c :: d :: r) ↔ Q d m (c :: d :: r) :=
  lw_peekAt (pre := [c]) rfl (by simpa using hc)

theorem lw_skipC {Q : Unit → Mark → Text → Prop} :
    lw skipC Q m (c :: r) ↔ Q () { m with index := m.index + 1, column := m.column + 1 } r := Iff.rfl

theorem lw_readC {s : Text} {Q : Text → Mark → Text → Prop} :
    lw (readC s) Q m (c :: r) ↔ Q (s ++ [c]) { m with index := m.index + 1, column := m.column + 1 } r := by
  unfold readC
  rw [lw_bind, lw_peek0, lw_bind, lw_skipC, lw_pure]

/-- A preferred line break or LS or PS as it is written for the line break `b` of a text. -/
def brkOut (lb : Break) (b : Nat) : Text := if b = 0xA then brkText (some lb) else [b]

/-- The line breaks that are written as they are. -/
def keptBreak (b : Nat) : Prop := b = 0xA ∨ b = 0x2028 ∨ b = 0x2029

theorem lw_passBreak1 {Q : Unit → Mark → Text → Prop} :
    lw (passBreak 1) Q m (c :: r) ↔ Q () { index := m.index + 1, line := m.line + 1, column := 0 } r := Iff.rfl

theorem lw_passBreak2 {Q : Unit → Mark → Text → Prop} :
    lw (passBreak 2) Q m (c :: d :: r) ↔ Q () { index := m.index + 2, line := m.line + 1, column := 0 } r := Iff.rfl

/-- Reading a line break written by the emitter. -/
theorem lw_readLine {s : Text} {lb : Break} {b : Nat} (hb : keptBreak b) (hr : r ≠ []) (hn : r.head? ≠ some 0xA)
    {Q : Text → Mark → Text → Prop} (hQ : ∀ k, Q (s ++ [b]) { index := k, line := m.line + 1, column := 0 } r) :
    lw (readLine s) Q m (brkOut lb b ++ r) := by
  unfold readLine brkOut
  cases r with
  | nil => exact absurd rfl hr
  | cons d r =>
    rcases hb with rfl | rfl | rfl
    · rw [if_pos rfl]
      cases lb with
      | cr =>
        simp only [brkText, List.cons_append, List.nil_append]
        rw [lw_bind, lw_peek0, lw_ite, if_pos (by decide), lw_bind, lw_peek1 (by omega), lw_bind]
        rw [if_neg (by simpa using hn), lw_passBreak1, lw_pure]
        exact hQ _
      | ln =>
        simp only [brkText, List.cons_append, List.nil_append]
        rw [lw_bind, lw_peek0, lw_ite, if_neg (by decide), lw_ite, if_pos (by decide), lw_bind, lw_passBreak1, lw_pure]
        exact hQ _
      | crln =>
        simp only [brkText, List.cons_append, List.nil_append]
        rw [lw_bind, lw_peek0, lw_ite, if_pos (by decide), lw_bind, lw_peek1 (by omega), lw_bind]
        rw [if_pos (by decide), lw_passBreak2, lw_pure]
        exact hQ _
    · rw [if_neg (by decide)]
      simp only [List.cons_append, List.nil_append]
      rw [lw_bind, lw_peek0, lw_ite, if_neg (by decide), lw_ite, if_neg (by decide), lw_ite, if_pos (by decide), lw_bind,
        lw_passBreak1, lw_pure]
      exact hQ _
    · rw [if_neg (by decide)]
      simp only [List.cons_append, List.nil_append]
      rw [lw_bind, lw_peek0, lw_ite, if_neg (by decide), lw_ite, if_neg (by decide), lw_ite, if_pos (by decide), lw_bind,
        lw_passBreak1, lw_pure]
      exact hQ _

/-- Away from the beginning of a line there is no document indicator. -/
theorem lw_docIndicator {Q : Bool → Mark → Text → Prop} (h : m.column ≠ 0) : lw docIndicator Q m cs ↔ Q false m cs := by
  unfold docIndicator docMark
  rw [lw_bind, lw_bind, lw_get, lw_ite, if_neg h, lw_pure, lw_ite, if_neg (by decide), lw_bind, lw_get, lw_ite, if_neg h, lw_pure]

end LibYaml
