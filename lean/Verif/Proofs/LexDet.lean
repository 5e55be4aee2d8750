import Verif.Proofs.LexUnique
import Verif.Proofs.NulKept

/-!
# A text has at most one sequence of lexemes

The rules are deterministic: the lexemes read so far determine the next one.
-/

namespace LibYaml

open Spec

variable {T u u' : List Nat} {ls ls1 ls2 : List Lx} {lv lv1 lv2 : Nat} {key key1 key2 : Bool} {m : Mark} {d : TokData}

theorem filler_unique {flow a b b' : Bool} {col : Nat} {cs r r' : List Nat} (h : Filler flow a col cs b r) (h' : Filler flow a col cs b' r') : b = b' ∧ r = r' := by
  obtain ⟨_, y⟩ := filler_complete (m := { column := col }) h rfl (Nat.lt_succ_self _) (Nat.lt_succ_self _)
  obtain ⟨_, y'⟩ := filler_complete (m := { column := col }) h' rfl (Nat.lt_succ_self _) (Nat.lt_succ_self _)
  obtain ⟨e, _, e'⟩ := y_det y y'
  exact ⟨e, e'⟩

theorem marked_unique {kd kd' : Bool} (h : Marked ls lv m d ls1 kd) (h' : Marked ls lv m d ls2 kd') : ls1 = ls2 ∧ kd = kd' := by
  cases h with
  | other hd =>
    cases h' with
    | other => exact ⟨rfl, rfl⟩
    | implicit h => exact absurd h hd
    | explicit h => exact absurd h hd
  | implicit hd hp hr =>
    cases h' with
    | other h => exact absurd hd h
    | implicit _ hp' hr' =>
      obtain ⟨rfl, rfl, rfl⟩ := pending_unique hp hp'
      exact ⟨rfl, rfl⟩
    | explicit _ h => exact absurd hr (h _ _ _ hp)
  | explicit hd hn =>
    cases h' with
    | other => exact ⟨rfl, rfl⟩
    | implicit _ hp hr => exact absurd hr (hn _ _ _ hp)
    | explicit => exact ⟨rfl, rfl⟩

theorem LexStep.unique (hz : ∀ r, T = u ++ r → 0 ∈ r) {us vs : List Nat} (h : LexStep T ls u lv key ls1 us lv1 key1) (h' : LexStep T ls u lv key ls2 vs lv2 key2) :
    ls1 = ls2 ∧ us = vs ∧ lv1 = lv2 ∧ key1 = key2 := by
  cases h with
  | @mk w v x mid rest key' kd line ls' d hT hf hl hx hm hk hn =>
    cases h' with
    | @mk w2 v2 x2 mid2 rest2 key2 kd2 line2 ls2 d2 hT2 hf2 hl2 hx2 hm2 hk2 hn2 =>
      have e1 : w ++ (v ++ rest) = w2 ++ (v2 ++ rest2) := List.append_cancel_left (hT.symm.trans hT2)
      rw [← e1] at hf2
      obtain ⟨rfl, e2⟩ := filler_unique hf hf2
      rw [← e2] at e1
      obtain rfl := List.append_cancel_right e1
      rw [← e2] at hl2
      obtain ⟨rfl, rfl, rfl, rfl⟩ := lexeme_unique (hf.nul (hz _ hT)) hl hl2
      obtain rfl := List.append_cancel_right e2
      obtain rfl := List.append_cancel_right (hx.symm.trans hx2)
      obtain ⟨rfl, rfl⟩ := marked_unique hm hm2
      exact ⟨rfl, rfl, rfl, rfl⟩

theorem LexStep.length {us : List Nat} (h : LexStep T ls u lv key ls1 us lv1 key1) : ls1.length = ls.length + 1 := by
  cases h with
  | mk _ _ _ _ hm => simp [marked_length hm]

theorem Spec.Lexed.last (h : Lexed T ls1 u' lv1 key1) : (ls1 = [] ∧ u' = [] ∧ lv1 = 0 ∧ key1 = true) ∨
    ∃ ls u lv key, Lexed T ls u lv key ∧ (∀ x ∈ ls, x.data ≠ .streamEnd) ∧ LexStep T ls u lv key ls1 u' lv1 key1 := by
  cases h with
  | start => exact .inl ⟨rfl, rfl, rfl, rfl⟩
  | @next ls u lv key w v x mid rest key' kd line ls' d h hno hT hf hl hx hm hk hn =>
    exact .inr ⟨ls, u, lv, key, h, hno, .mk hT hf hl hx hm hk hn⟩

/-- The number of lexemes determines them. -/
theorem Spec.Lexed.unique (hz : 0 ∈ T) (h : Lexed T ls1 u lv1 key1) (h' : Lexed T ls2 u' lv2 key2) (hl : ls1.length = ls2.length) :
    ls1 = ls2 ∧ u = u' ∧ lv1 = lv2 ∧ key1 = key2 := by
  generalize hn : ls1.length = n at hl
  induction n generalizing ls1 ls2 u u' lv1 lv2 key1 key2 with
  | zero =>
    rcases h.last with ⟨rfl, rfl, rfl, rfl⟩ | ⟨_, _, _, _, _, _, hs⟩
    · rcases h'.last with ⟨rfl, rfl, rfl, rfl⟩ | ⟨_, _, _, _, _, _, hs⟩
      · exact ⟨rfl, rfl, rfl, rfl⟩
      · have := hs.length; omega
    · have := hs.length; omega
  | succ n ih =>
    rcases h.last with ⟨rfl, _⟩ | ⟨ls, w, lv, key, h1, _, hs⟩
    · cases hn
    rcases h'.last with ⟨rfl, _⟩ | ⟨ls', w', lv', key', h1', _, hs'⟩
    · cases hl
    obtain ⟨rfl, rfl, rfl, rfl⟩ := ih h1 h1' (by have := hs'.length; have := hs.length; omega) (by have := hs'.length; have := hs.length; omega)
    exact hs.unique (fun r hr => h1.nul hz hr) hs'

/-- The stages of the reading of a text. -/
theorem Spec.Lexed.stage (h : Lexed T ls1 u lv1 key1) {n : Nat} (hn : n < ls1.length) :
    ∃ ls u lv key ls' u' lv' key', Lexed T ls u lv key ∧ ls.length = n ∧ (∀ x ∈ ls, x.data ≠ .streamEnd) ∧ LexStep T ls u lv key ls' u' lv' key' := by
  generalize hk : ls1.length = k at hn
  induction k generalizing ls1 u lv1 key1 with
  | zero => omega
  | succ k ih =>
    rcases h.last with ⟨rfl, _⟩ | ⟨ls, w, lv, key, h1, hno, hs⟩
    · cases hk
    have hl := hs.length
    by_cases he : ls.length = n
    · exact ⟨ls, w, lv, key, _, _, _, _, h1, he, hno, hs⟩
    · exact ih h1 (by omega) (by omega)

/-- If the text has a complete sequence of lexemes, an incomplete one can be continued. -/
theorem Spec.Lexed.ahead (hz : 0 ∈ T) (h : Lexed T ls1 u lv1 key1) (hno : ∀ x ∈ ls1, x.data ≠ .streamEnd) (h' : Lexed T ls2 u' lv2 key2)
    (hend : ∃ x ∈ ls2, x.data = .streamEnd) : ∃ ls v lv key, LexStep T ls1 u lv1 key1 ls v lv key := by
  obtain ⟨x, hx, hd⟩ := hend
  by_cases hl : ls1.length < ls2.length
  · obtain ⟨ls, w, lv, key, ls', v, lv', key', k1, k2, _, k3⟩ := h'.stage hl
    obtain ⟨rfl, rfl, rfl, rfl⟩ := h.unique hz k1 k2.symm
    exact ⟨_, _, _, _, k3⟩
  · exfalso
    by_cases he : ls1.length = ls2.length
    · obtain ⟨rfl, _⟩ := h.unique hz h' he
      exact hno x hx hd
    · obtain ⟨ls, w, lv, key, ls', v, lv', key', k1, k2, k3, _⟩ := h.stage (n := ls2.length) (by omega)
      obtain ⟨rfl, _⟩ := h'.unique hz k1 k2.symm
      exact k3 x hx hd

/-- There is at most one complete sequence of lexemes. -/
theorem Spec.Lexed.whole_unique (hz : 0 ∈ T) (h : Lexed T ls1 u lv1 key1) (hend : ∃ x ∈ ls1, x.data = .streamEnd) (h' : Lexed T ls2 u' lv2 key2)
    (hend' : ∃ x ∈ ls2, x.data = .streamEnd) : ls1 = ls2 := by
  rcases Nat.lt_trichotomy ls1.length ls2.length with hl | hl | hl
  · exfalso
    obtain ⟨ls, w, lv, key, ls', v, lv', key', k1, k2, k3, _⟩ := h'.stage hl
    obtain ⟨rfl, _⟩ := h.unique hz k1 k2.symm
    obtain ⟨x, hx, hd⟩ := hend
    exact k3 x hx hd
  · exact (h.unique hz h' hl).1
  · exfalso
    obtain ⟨ls, w, lv, key, ls', v, lv', key', k1, k2, k3, _⟩ := h.stage hl
    obtain ⟨rfl, _⟩ := h'.unique hz k1 k2.symm
    obtain ⟨x, hx, hd⟩ := hend'
    exact k3 x hx hd

end LibYaml
