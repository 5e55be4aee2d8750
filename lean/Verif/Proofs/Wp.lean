import Verif.Model.Basic

/-! Weakest preconditions for computations with state and failure. -/

namespace LibYaml

/-- Every outcome of `m` from `s` is a success satisfying `Q` or a failure satisfying `E`. -/
def wp {σ α : Type} (m : StateT σ (Except Fail) α) (Q : α → σ → Prop) (E : Fail → Prop) (s : σ) : Prop :=
  match m s with
  | .ok (a, s') => Q a s'
  | .error e => E e

variable {σ α β : Type} {Q : β → σ → Prop} {E : Fail → Prop} {s : σ}

theorem wp_ok {m : StateT σ (Except Fail) α} {Q : α → σ → Prop} {a : α} {s' : σ} (h : wp m Q E s)
    (hm : m s = .ok (a, s')) : Q a s' := by
  unfold wp at h; rw [hm] at h; exact h

theorem wp_error {m : StateT σ (Except Fail) α} {Q : α → σ → Prop} {e : Fail} (h : wp m Q E s)
    (hm : m s = .error e) : E e := by
  unfold wp at h; rw [hm] at h; exact h

theorem wp_mono {m : StateT σ (Except Fail) α} {Q Q' : α → σ → Prop} {E E' : Fail → Prop} (h : wp m Q E s)
    (hQ : ∀ a s', Q a s' → Q' a s') (hE : ∀ e, E e → E' e) : wp m Q' E' s := by
  unfold wp at *
  split <;> rename_i heq <;> rw [heq] at h
  · exact hQ _ _ h
  · exact hE _ h

theorem wp_bind {m : StateT σ (Except Fail) α} {f : α → StateT σ (Except Fail) β} :
    wp (m >>= f) Q E s ↔ wp m (fun a s' => wp (f a) Q E s') E s := by
  unfold wp
  simp only [bind, StateT.bind, Except.bind]
  cases m s with
  | error e => exact Iff.rfl
  | ok p => exact Iff.rfl

theorem wp_pure {b : β} : wp (pure b) Q E s ↔ Q b s := Iff.rfl

end LibYaml
