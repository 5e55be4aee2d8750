import Verif.Proofs.Requests
import Verif.Proofs.ErrorOrderRun

/-!
# What the scanner has done does not depend on the text more than 8 characters ahead

Two runs on texts with a common beginning are followed side by side.
-/

namespace LibYaml

open Spec

variable {T u v v' : List Nat} {e : Option Fail} {o o' : Oracle} {f : Nat}

/-- Two runs after the same number of calls: the first has stopped, or has come close to the end of the common beginning, or both
are in the same state but for the rest of the text. -/
inductive Parallel (T : List Nat) (e : Option Fail) (v v' : List Nat) (outs outs' : List ScanOut) (st st' : ScanSt RS) : Prop
  | stopped (h : st.ended = true ∨ st.error.isSome = true)
  | going (D : List Token) (i : In) (hend : st.ended = false) (herr : st.error = none) (next : Next T e D st.scanner i)
      (rel : Rel st.input i) (bad : i.bad = e)
      (h : i.cs.length < v.length + 8 ∨
        ∃ w, i.cs = w ++ v ∧ i.avail ≤ 8 ∧ Rel st'.input ⟨w ++ v', i.avail, none⟩ ∧ outs' = outs ∧ st'.scanner = st.scanner ∧
          st'.ended = false ∧ st'.error = none)

theorem parallel_call {outs outs' : List ScanOut} {st st' : ScanSt RS} (hb : BadOk e) (hf : T.length + 2 < f) (ho : NoFail o')
    (h : Parallel T e v v' outs outs' st st') :
    Parallel T e v v' (outs ++ [(scanCall (onReader o) f st).1]) (outs' ++ [(scanCall (onReader o') f st').1])
      (scanCall (onReader o) f st).2 (scanCall (onReader o') f st').2 := by
  cases h with
  | stopped h =>
    refine .stopped ?_
    unfold scanCall
    rw [if_pos (by simpa using h)]
    exact h
  | going D i hend herr next rel bad h =>
    have hsafe := sm_nextToken hb next hf
    unfold pw at hsafe
    have hub : (nextToken f st.scanner).run i ≠ .error .ub := by
      intro hu; rw [hu] at hsafe; exact hsafe.1
    have hbadCall : ∀ {er}, onReader o (nextToken f) st.scanner st.input = .error er →
        scanCall (onReader o) f st = (.failed, { st with error := some er }) := fun h => by
      unfold scanCall
      rw [if_neg (by rw [hend, herr]; simp), h]
    have hgoodCall : ∀ {t s i}, onReader o (nextToken f) st.scanner st.input = .ok ((t, s), i) →
        scanCall (onReader o) f st = (.token t, { st with scanner := s, input := i, ended := t.data == .streamEnd }) :=
      fun h => by
      unfold scanCall
      rw [if_neg (by rw [hend, herr]; simp), h]
    rcases runR_refines o (nextToken f st.scanner) st.input i rel hub with
      ⟨er, h1, h2⟩ | ⟨er, h1, h2⟩ | ⟨⟨t, s'⟩, i', sr, h1, h2, h3⟩
    · rw [hbadCall h1]; exact .stopped (.inr rfl)
    · rw [hbadCall h2]; exact .stopped (.inr rfl)
    · rw [hgoodCall h2]
      rw [h1] at hsafe
      have hshort := Prog.run_shorter h1
      have key : i'.cs.length < v.length + 8 ∨
        ∃ w, i'.cs = w ++ v ∧ i'.avail ≤ 8 ∧ Rel (scanCall (onReader o') f st').2.input ⟨w ++ v', i'.avail, none⟩ ∧
          outs' ++ [(scanCall (onReader o') f st').1] = outs ++ [.token t] ∧ (scanCall (onReader o') f st').2.scanner = s' ∧
          (scanCall (onReader o') f st').2.ended = (t.data == .streamEnd) ∧ (scanCall (onReader o') f st').2.error = none := by
        by_cases hn : i'.cs.length < v.length + 8
        · exact .inl hn
        rcases h with h | ⟨w, hw, hav, hrel, hout, hsc, hend', herr'⟩
        · omega
        refine .inr ?_
        have hi : i = ⟨w ++ v, i.avail, i.bad⟩ := by rw [← hw]
        rw [hi] at h1
        obtain ⟨w', av', rfl, hav', hrun⟩ := (scanAsks_nextToken f st.scanner).local (by decide) (v' := v') (bad' := none) hav h1
          (by omega)
        have h4 : onReader o' (nextToken f) st'.scanner st'.input = onReader o' (nextToken f) st.scanner st'.input := by rw [hsc]
        rcases runR_refines o' (nextToken f st.scanner) st'.input _ hrel (by rw [hrun]; intro h; cases h) with
          ⟨er, k1, k2⟩ | ⟨er, k1, k2⟩ | ⟨a, j, sr', k1, k2, k3⟩
        · rcases k2 with ⟨k, _⟩ | k
          · exact absurd ho k
          · cases k
        · rw [hrun] at k1; cases k1
        · rw [hrun] at k1
          cases k1
          have k2 : onReader o' (nextToken f) st'.scanner st'.input = .ok ((t, s'), sr') := h4.trans k2
          have hc : scanCall (onReader o') f st' = (.token t, { st' with scanner := s', input := sr', ended := t.data == .streamEnd }) := by
            unfold scanCall
            rw [if_neg (by rw [hend', herr']; simp), k2]
          rw [hc]
          exact ⟨w', rfl, hav', k3, by rw [hout], rfl, rfl, herr'⟩
      have hbad : i'.bad = e := by rw [← bad]; exact Prog.run_bad _ _ h1
      have hne : ∀ {t : Token}, t.data ≠ .streamEnd → (t.data == .streamEnd) = false := by
        intro t ht; simpa using ht
      cases hsafe with
      | running hr ht => rw [hne ht] at key ⊢; exact .going (D ++ [t]) i' rfl herr (.running hr) h3 hbad key
      | ended hr ht => rw [hne ht] at key ⊢; exact .going (D ++ [t]) i' rfl herr (.ended hr) h3 hbad key
      | done hr ht hn _ _ => exact .stopped (.inl (by simp [ht]))

theorem parallel_run {st st' : ScanSt RS} (hb : BadOk e) (hf : T.length + 2 < f) (ho : NoFail o') (h : Parallel T e v v' [] [] st st') (k : Nat) :
    Parallel T e v v' (scanRun o f st k).1 (scanRun o' f st' k).1 (scanRun o f st k).2 (scanRun o' f st' k).2 := by
  induction k with
  | zero => exact h
  | succ k ih => exact parallel_call hb hf ho ih

/-- What follows from it while the first run is far enough from the end of the common beginning. -/
theorem Parallel.same {outs outs' : List ScanOut} {st st' : ScanSt RS} (h : Parallel (u ++ v) e v v' outs outs' st st') (hu : 0 ∉ u)
    (herr : st.error = none) (hend : st.ended = false) (hm : st.scanner.mark.index + 8 ≤ u.length) :
    outs' = outs ∧ st'.scanner = st.scanner ∧ st'.ended = false ∧ st'.error = none := by
  cases h with
  | stopped h => rw [herr, hend] at h; simp at h
  | going D i _ _ next rel bad h =>
    rcases h with h | ⟨w, _, _, _, h⟩
    · exfalso
      have far : ∀ {m : Mark}, At (u ++ v) e m i → m.index + 8 ≤ u.length → False := by
        intro m hp hm
        obtain ⟨x, h1, h2, _⟩ := hp.path
        have := congrArg List.length h1
        have hx : m.index = x.length := by rw [h2]; rfl
        simp only [List.length_append] at this
        omega
      cases next with
      | fresh _ hf => exact far hf.pos hm
      | running hr => exact far hr.base.pos hm
      | ended hr =>
        obtain ⟨x, r, h1, h2⟩ := hr.here
        have hx : st.scanner.mark.index = x.length := by
          rw [h2]; unfold forceLine; split <;> rfl
        apply hu
        have : (u ++ v)[x.length]? = some 0 := by rw [h1]; simp
        rw [List.getElem?_append_left (by omega)] at this
        exact List.mem_of_getElem? this
    · exact h

end LibYaml
