import Verif.Proofs.ErrorOrder

/-!
# Contexts of scanner errors over all calls
-/

namespace LibYaml

open Spec

/-- Not an error of the scanner. -/
def NotSc (er : Fail) : Prop := ∀ c cm p pm, er ≠ .scanner c cm p pm

theorem notSc_ub : NotSc .ub := fun _ _ _ _ h => by cases h
theorem notSc_fuel : NotSc .fuel := fun _ _ _ _ h => by cases h
theorem notSc_reader {p : String} {o : Nat} {v : Int} : NotSc (.reader p o v) := fun _ _ _ _ h => by cases h

theorem notSc_store {st : RS} {bs : List UInt8} {er : Fail} (h : st.store bs = .error er) : NotSc er := by
  unfold RS.store at h
  split at h <;> cases h
  exact notSc_ub

theorem notSc_updateRaw {o : Oracle} {st : RS} {er : Fail} (h : updateRaw o st = .error er) : NotSc er := by
  unfold updateRaw at h
  split at h
  · cases h
  · split at h
    · cases h
    · simp only at h
      split at h <;> cases h
      exact notSc_reader

theorem notSc_needThree {o : Oracle} : ∀ {n : Nat} {st : RS} {er : Fail}, needThree o n st = .error er → NotSc er
  | 0, _, _, h => by cases h; exact notSc_fuel
  | n + 1, st, er, h => by
    unfold needThree at h
    split at h
    · cases hu : updateRaw o st with
      | error e => rw [hu] at h; cases h; exact notSc_updateRaw hu
      | ok st' => rw [hu] at h; exact notSc_needThree h
    · cases h

theorem notSc_decodeLoop {e : Enc} : ∀ {n : Nat} {st : RS} {er : Fail}, decodeLoop e n st = .error er → NotSc er
  | 0, _, _, h => by cases h; exact notSc_fuel
  | n + 1, st, er, h => by
    unfold decodeLoop at h
    split at h
    · cases h
    · split at h
      · cases h; exact notSc_reader
      · cases h
      · split at h
        · cases h; exact notSc_reader
        · simp only at h
          split at h
          · rename_i hst
            cases h
            exact notSc_store hst
          · exact notSc_decodeLoop h

theorem notSc_fillLoop {o : Oracle} {e : Enc} {l : Nat} : ∀ {n : Nat} {b : Bool} {st : RS} {er : Fail},
    fillLoop o e l n b st = .error er → NotSc er
  | 0, _, _, _, h => by cases h; exact notSc_fuel
  | n + 1, b, st, er, h => by
    unfold fillLoop at h
    split at h
    · split at h
      · rename_i hu
        cases h
        split at hu
        · exact notSc_updateRaw hu
        · cases hu
      · split at h
        · rename_i hd
          cases h
          exact notSc_decodeLoop hd
        · split at h
          · split at h
            · rename_i hst
              cases h
              exact notSc_store hst
            · cases h
          · exact notSc_fillLoop h
    · cases h

theorem notSc_cacheR {o : Oracle} {st : RS} {n : Nat} {er : Fail} (h : cacheR o st n = .error er) : NotSc er := by
  unfold cacheR at h
  by_cases hu : st.unread ≥ n
  · rw [if_pos hu] at h; cases h
  rw [if_neg hu] at h
  unfold updateBuffer at h
  by_cases he : st.eof = true ∧ st.raw.isEmpty = true
  · rw [if_pos he] at h; cases h
  rw [if_neg he, if_neg hu] at h
  cases hen : ensureEncoding o st with
  | error e =>
    rw [hen] at h
    cases h
    unfold ensureEncoding at hen
    split at hen
    · unfold determineEncoding at hen
      cases hn : needThree o 5 st with
      | error e => rw [hn] at hen; cases hen; exact notSc_needThree hn
      | ok st' => rw [hn] at hen; cases hen
    · cases hen
  | ok st1 =>
    simp only [hen] at h
    cases henc : st1.enc with
    | none => rw [henc] at h; cases h; exact notSc_ub
    | some en =>
      simp only [henc] at h
      cases hfl : fillLoop o en n ((moveBuf st1).src.rest.length + 3) true (moveBuf st1) with
      | error e => rw [hfl] at h; cases h; exact notSc_fillLoop hfl
      | ok v =>
        obtain ⟨st2, d⟩ := v
        rw [hfl] at h
        cases d with
        | true => cases h
        | false =>
          simp only at h
          split at h <;> cases h
          exact notSc_reader

theorem notSc_lookR {st : RS} {j : Nat} {er : Fail} (h : lookR st j = .error er) : NotSc er := by
  unfold lookR at h
  split at h
  · split at h <;> cases h
    exact notSc_ub
  · cases h; exact notSc_ub

theorem notSc_skipR {st : RS} {er : Fail} (h : skipR st = .error er) : NotSc er := by
  unfold skipR at h
  split at h
  · cases h; exact notSc_ub
  · simp only at h
    split at h <;> cases h
    exact notSc_ub

/-- The reader adds no errors of the scanner. -/
theorem Prog.Sat.runR {α : Type} {Q : α → Prop} {E : Fail → Prop} {o : Oracle} {p : Prog α} (h : p.Sat Q E) (hE : ∀ er, NotSc er → E er) :
    ∀ st : RS, (∀ a st', p.runR o st = .ok (a, st') → Q a) ∧ ∀ er, p.runR o st = .error er → E er := by
  induction p with
  | ret a => exact fun st => ⟨fun _ _ h' => by cases h'; exact h, fun _ h' => by cases h'⟩
  | fail e => exact fun st => ⟨fun _ _ h' => (by cases h'), fun _ h' => by cases h'; exact h⟩
  | cache n k ih =>
    intro st
    simp only [Prog.runR]
    cases hc : cacheR o st n with
    | error e => exact ⟨fun _ _ h' => (by cases h'), fun _ h' => by cases h'; exact hE _ (notSc_cacheR hc)⟩
    | ok st1 => exact ih h st1
  | look j k ih =>
    intro st
    simp only [Prog.runR]
    cases hc : lookR st j with
    | error e => exact ⟨fun _ _ h' => (by cases h'), fun _ h' => by cases h'; exact hE _ (notSc_lookR hc)⟩
    | ok c => exact ih c (h c) st
  | skip k ih =>
    intro st
    simp only [Prog.runR]
    cases hc : skipR st with
    | error e => exact ⟨fun _ _ h' => (by cases h'), fun _ h' => by cases h'; exact hE _ (notSc_skipR hc)⟩
    | ok st1 => exact ih h st1

/-- All tokens delivered end at or before `m`. -/
def AllBefore (outs : List ScanOut) (m : Mark) : Prop := ∀ t, .token t ∈ outs → t.stop.index ≤ m.index

/-- What is known after some calls, besides `ScanInv`. -/
def OrderInv (outs : List ScanOut) (st : ScanSt RS) : Prop :=
  (st.error = none → st.ended = false → ∀ k ∈ st.scanner.keys, k.stale st.scanner.mark = false) ∧
  ∀ er, st.error = some er → EP (AllBefore outs) er

variable {T : List Nat} {e : Option Fail} {o : Oracle} {f : Nat}

theorem orderInv_call {outs : List ScanOut} {st : ScanSt RS} (hi : ScanInv T e outs st) (h : OrderInv outs st) :
    OrderInv (outs ++ [(scanCall (onReader o) f st).1]) (scanCall (onReader o) f st).2 := by
  have skip : st.ended = true ∨ st.error.isSome = true → OrderInv (outs ++ [(scanCall (onReader o) f st).1]) (scanCall (onReader o) f st).2 := by
    intro hs
    unfold scanCall
    rw [if_pos (by simpa using hs)]
    refine ⟨h.1, fun er her c cm p pm he => ?_⟩
    obtain ⟨h1, h2⟩ := h.2 er her c cm p pm he
    refine ⟨h1, fun t ht => h2 t ?_⟩
    simpa using ht
  cases hi with
  | ended D j hout hend herr final nested => exact skip (.inl hend)
  | failed D j er i hout hend herr rep next => exact skip (.inr (by rw [herr]; rfl))
  | going D i hout hend herr next rel bad =>
    have key : (nextToken f st.scanner).Sat (fun r => ∀ k ∈ r.2.keys, k.stale r.2.mark = false) (EP (AllBefore outs)) := by
      have hD : ∀ t, .token t ∈ outs → t ∈ D := by
        intro t ht
        rw [hout] at ht
        simpa using ht
      cases next with
      | fresh hD0 hfr =>
        subst hD0
        refine sat_nextToken (b := 0) (fun m _ t ht => by cases hD t ht) f ⟨Nat.zero_le _, fun k hk hp => ?_⟩
        rw [hfr.eq] at hk
        cases hk
      | running hr =>
        have hm := hr.base.toks.marks
        refine sat_nextToken (b := st.scanner.mark.index) (fun m hb t ht => ?_) f ⟨Nat.le_refl _, fun k hk hp => ?_⟩
        · exact Nat.le_trans (hm t (by simp [hD t ht])).2.2.2 hb
        · obtain ⟨hlo, _, _, htok⟩ := hr.base.keys k hk hp
          rcases htok with ⟨t, h1, h2, h3⟩ | ⟨_, h2⟩
          · refine ⟨Nat.le_of_lt h3, fun u hu => ?_⟩
            have hu := hD u hu
            rw [← h2]
            rw [List.getElem?_append_right hlo] at h1
            exact (List.pairwise_append.mp hr.base.toks.order).2.2 u hu t (List.mem_of_getElem? h1)
          · rw [h2]
            exact ⟨Nat.le_refl _, fun u hu => (hm u (by simp [hD u hu])).2.2.2⟩
      | ended hr =>
        refine nextToken_quiet f hr.ne fun k hk => ?_
        have h1 := h.1 herr hend k hk
        cases hp : k.possible with
        | false => rfl
        | true =>
          have := hr.stale k hk hp
          unfold SimpleKey.stale at h1
          rw [hp] at h1
          simp [this] at h1
    obtain ⟨h1, h2⟩ := key.runR (o := o) (fun er hn => EP.other hn) st.input
    unfold scanCall
    rw [if_neg (by rw [hend, herr]; simp)]
    cases hr : onReader o (nextToken f) st.scanner st.input with
    | error er =>
      refine ⟨fun h => (by cases h), fun er' he c cm p pm hh => ?_⟩
      cases he
      obtain ⟨k1, k2⟩ := h2 er hr c cm p pm hh
      refine ⟨k1, fun t ht => k2 t ?_⟩
      simpa using ht
    | ok v =>
      obtain ⟨⟨t, s⟩, st'⟩ := v
      exact ⟨fun _ _ => h1 _ _ hr, fun er' he => by rw [herr] at he; cases he⟩

theorem orderInv_run {enc : Option Enc} {bytes : List UInt8} {good : List Nat} {tail : List UInt8}
    (hsize : bytes.length < maxFileSize) (hs : Split (chosen enc bytes).1 (chosen enc bytes).2 good tail)
    (hf : bytes.length + 3 < f) (k : Nat) :
    OrderInv (scanRun o f (scanStart enc bytes) k).1 (scanRun o f (scanStart enc bytes) k).2 := by
  induction k with
  | zero => exact ⟨fun _ _ k hk => (by cases hk), fun er h => by cases h⟩
  | succ k ih => exact orderInv_call (scan_inv hsize hs hf k) ih

end LibYaml
