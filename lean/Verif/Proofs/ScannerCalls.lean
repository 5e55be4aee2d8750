import Verif.Proofs.ScannerRun
import Verif.Proofs.Prog

/-! Any number of calls of `yaml_parser_scan`, over the reader. -/

namespace LibYaml

open Spec

theorem Prog.run_bad {α : Type} (p : Prog α) (i : In) {a : α} {i' : In} (h : p.run i = .ok (a, i')) : i'.bad = i.bad := by
  induction p generalizing i with
  | ret a => cases h; rfl
  | fail e => cases h
  | cache n k ih =>
    simp only [Prog.run] at h
    cases hc : i.cache n with
    | error e => rw [hc] at h; cases h
    | ok j =>
      rw [hc] at h
      rw [ih j h]
      unfold In.cache at hc
      split at hc
      · cases hc
      · split at hc
        · cases hc; rfl
        · split at hc
          · cases hc; rfl
          · split at hc
            · cases hc
            · cases hc; rfl
  | look j k ih =>
    simp only [Prog.run] at h
    cases hc : i.look j with
    | error e => rw [hc] at h; cases h
    | ok c => rw [hc] at h; exact ih c i h
  | skip k ih =>
    simp only [Prog.run] at h
    cases hc : i.skip with
    | error e => rw [hc] at h; cases h
    | ok j =>
      rw [hc] at h
      rw [ih j h]
      unfold In.skip at hc
      split at hc
      · cases hc
      · split at hc
        · cases hc
        · cases hc; rfl

variable {T : List Nat} {e : Option Fail} {o : Oracle} {f : Nat}

/-- What is known after some calls. -/
inductive ScanInv (T : List Nat) (e : Option Fail) (outs : List ScanOut) (st : ScanSt RS) : Prop
  | going (D : List Token) (i : In) (hout : outs = D.map .token) (hend : st.ended = false) (herr : st.error = none)
      (next : Next T e D st.scanner i) (rel : Rel st.input i) (bad : i.bad = e)
  | ended (D : List Token) (j : Nat) (hout : outs = D.map .token ++ List.replicate j .nothing) (hend : st.ended = true)
      (herr : st.error = none) (final : Final T D) (nested : NestedColumns (st.scanner.indent :: st.scanner.indents))
  | failed (D : List Token) (j : Nat) (er : Fail) (i : In) (hout : outs = D.map .token ++ .failed :: List.replicate j .nothing)
      (hend : st.ended = false) (herr : st.error = some er) (rep : PointedErr T e er) (next : Next T e D st.scanner i)

theorem replicate_snoc {α : Type} (j : Nat) (a : α) : List.replicate j a ++ [a] = List.replicate (j + 1) a := by
  rw [List.replicate_succ']

theorem scanInv_call {outs : List ScanOut} {st : ScanSt RS} (hb : BadOk e) (hf : T.length + 2 < f)
    (h : ScanInv T e outs st) :
    ScanInv T e (outs ++ [(scanCall (onReader o) f st).1]) (scanCall (onReader o) f st).2 := by
  unfold scanCall
  cases h with
  | ended D j hout hend herr final nested =>
    rw [hend, Bool.true_or, if_pos rfl]
    exact .ended D (j + 1) (by rw [hout, List.append_assoc, replicate_snoc]) hend herr final nested
  | failed D j er i hout hend herr rep next =>
    rw [hend, herr]
    rw [if_pos (by rfl)]
    exact .failed D (j + 1) er i (by rw [hout, List.append_assoc, List.cons_append, replicate_snoc]) hend herr rep next
  | going D i hout hend herr next rel bad =>
    rw [if_neg (by rw [hend, herr]; simp)]
    have hsafe := sm_nextToken hb next hf
    unfold pw at hsafe
    have hub : (nextToken f st.scanner).run i ≠ .error .ub := by
      intro hu; rw [hu] at hsafe; exact hsafe.1
    have hfail : ∀ er, PointedErr T e er → ScanInv T e (outs ++ [.failed]) { st with error := some er } := fun er hrep =>
      .failed D 0 er i (by rw [hout]; rfl) hend rfl hrep next
    rcases runR_refines o (nextToken f st.scanner) st.input i rel hub with
      ⟨er, h1, h2⟩ | ⟨er, h1, h2⟩ | ⟨⟨t, s'⟩, i', st', h1, h2, h3⟩
    · have h1' : onReader o (nextToken f) st.scanner st.input = .error er := h1
      rw [h1']
      refine hfail er ?_
      rcases h2 with ⟨_, off, rfl⟩ | h2
      · exact ⟨trivial, fun _ _ _ _ h => by cases h⟩
      · obtain ⟨p, off, v, rfl⟩ := hb er (by rw [← bad]; exact h2)
        exact ⟨trivial, fun _ _ _ _ h => by cases h⟩
    · rw [h1] at hsafe
      have h2' : onReader o (nextToken f) st.scanner st.input = .error er := h2
      rw [h2']
      exact hfail er hsafe
    · rw [h1] at hsafe
      have h2' : onReader o (nextToken f) st.scanner st.input = .ok ((t, s'), st') := h2
      rw [h2']
      have hbad : i'.bad = e := by rw [← bad]; exact Prog.run_bad _ _ h1
      have hne : ∀ {t : Token}, t.data ≠ .streamEnd → (t.data == .streamEnd) = false := by
        intro t ht; simpa using ht
      cases hsafe with
      | running hr ht =>
        exact .going (D ++ [t]) i' (by rw [hout]; simp) (hne ht) herr (.running hr) h3 hbad
      | ended hr ht =>
        exact .going (D ++ [t]) i' (by rw [hout]; simp) (hne ht) herr (.ended hr) h3 hbad
      | done hr ht hn _ _ =>
        exact .ended (D ++ [t]) 0 (by rw [hout]; simp) (by simp [ht]) herr hr hn.nested

theorem scanInv_run {st : ScanSt RS} (hb : BadOk e) (hf : T.length + 2 < f) (h : ScanInv T e [] st) (k : Nat) :
    ScanInv T e (scanRun o f st k).1 (scanRun o f st k).2 := by
  induction k with
  | zero => exact h
  | succ k ih => exact scanInv_call hb hf ih

theorem scanInv_start {enc : Option Enc} {bytes : List UInt8} {good : List Nat} {tail : List UInt8}
    (hsize : bytes.length < maxFileSize) (hs : Split (chosen enc bytes).1 (chosen enc bytes).2 good tail) :
    ScanInv (inputOf enc bytes good tail).cs (inputOf enc bytes good tail).bad [] (scanStart enc bytes) := by
  refine .going [] _ rfl rfl rfl (.fresh rfl ⟨⟨⟨[], rfl, rfl, ?_⟩, rfl, by simp [inputOf], ?_⟩, rfl⟩)
    (rel_init enc bytes good tail hsize hs) rfl
  · rintro ⟨h, _⟩; cases h
  · intro hb
    by_cases ht : tail = []
    · simp [inputOf, ht]
    · simp [inputOf, ht] at hb

theorem inputOf_badOk {enc : Option Enc} {bytes : List UInt8} {good : List Nat} {tail : List UInt8} :
    BadOk (inputOf enc bytes good tail).bad := by
  intro er h
  by_cases ht : tail = []
  · simp [inputOf, ht] at h
  · simp only [inputOf, if_neg ht] at h
    obtain ⟨p, off, v, he⟩ := errAt_reported (e := (chosen enc bytes).1) (off := bytes.length - tail.length) ht
    rw [he] at h; cases h; exact ⟨p, off, v, rfl⟩

theorem inputOf_length {enc : Option Enc} {bytes : List UInt8} {good : List Nat} {tail : List UInt8}
    (hs : Split (chosen enc bytes).1 (chosen enc bytes).2 good tail) :
    (inputOf enc bytes good tail).cs.length ≤ bytes.length + 1 := by
  have h1 := split_length hs
  have h2 := chosen_length enc bytes
  unfold inputOf
  simp only [List.length_append]
  split <;> simp <;> omega

/-- All calls from the start. -/
theorem scan_inv {enc : Option Enc} {bytes : List UInt8} {good : List Nat} {tail : List UInt8}
    (hsize : bytes.length < maxFileSize) (hs : Split (chosen enc bytes).1 (chosen enc bytes).2 good tail)
    (hf : bytes.length + 3 < f) (k : Nat) :
    ScanInv (inputOf enc bytes good tail).cs (inputOf enc bytes good tail).bad
      (scanRun o f (scanStart enc bytes) k).1 (scanRun o f (scanStart enc bytes) k).2 :=
  scanInv_run inputOf_badOk (by have := inputOf_length hs; omega) (scanInv_start hsize hs) k

/-! ### Consequences -/

theorem isPos_trim {good z : List Nat} {x : Mark} (h : IsPos (good ++ z) x) (hx : x.index ≤ good.length) : IsPos good x := by
  obtain ⟨u, v, h1, h2, h3⟩ := h
  have hu : u.length ≤ good.length := by rw [h2] at hx; exact hx
  obtain ⟨w, rfl⟩ : ∃ w, good = u ++ w := by
    refine ⟨good.drop u.length, ?_⟩
    have : (good ++ z).take u.length = (u ++ v).take u.length := by rw [h1]
    rw [List.take_append_of_le_length hu, List.take_left] at this
    exact (List.take_append_drop u.length good).symm.trans (by rw [this])
  refine ⟨u, w, rfl, h2, ?_⟩
  rintro ⟨k1, k2⟩
  refine h3 ⟨k1, ?_⟩
  rw [List.append_assoc] at h1
  rw [← List.append_cancel_left h1]
  cases w with
  | nil => cases k2
  | cons a l => simpa using k2

end LibYaml
