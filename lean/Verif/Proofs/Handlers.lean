import Verif.Spec.Handlers
import Verif.Proofs.SrcSim

/-!
# C76: the reader over any handler does what it does over an oracle
-/

namespace LibYaml

open Spec

variable {ρ : Type}

/-- Whatever is asked for, the handler and the oracle give the same and stay related. -/
def ActsAs (H : ReadHandler ρ) (o : Oracle) (I : ρ → Src → Prop) : Prop :=
  ∀ r s size, size ≤ rawCap → I r s →
    match H r size, s.read o size with
    | .ok (none, _), none => True
    | .ok (some l, r'), some (l', s') => l = l' ∧ I r' s'
    | _, _ => False

/-- What is read, and the source afterwards. -/
theorem read_some {o : Oracle} {s s' : Src} {size : Nat} {l : List UInt8} (h : s.read o size = some (l, s')) :
    l.length ≤ size ∧ s' = { rest := s.rest.drop l.length, asked := size :: s.asked } := by
  unfold Src.read at h
  split at h
  · cases h
  · rename_i k _
    simp only [Option.some.injEq, Prod.mk.injEq] at h
    obtain ⟨rfl, rfl⟩ := h
    refine ⟨by rw [List.length_take]; omega, ?_⟩
    congr 1
    rw [List.length_take]
    generalize min (max 1 k) size = q
    by_cases hm : q ≤ s.rest.length
    · rw [Nat.min_eq_left hm]
    · rw [Nat.min_eq_right (by omega), List.drop_length, List.drop_eq_nil_of_le (by omega)]

/-- Results that are the same, with related sources. -/
def SameR {α : Type} (I : ρ → Src → Prop) (g : α → Src) : Except Fail (α × ρ) → Except Fail α → Prop
  | .ok (a, r), .ok a' => a = a' ∧ I r (g a')
  | .error e, .error e' => e = e'
  | _, _ => False

theorem SameR.cases {α : Type} {I : ρ → Src → Prop} {g : α → Src} {x : Except Fail (α × ρ)} {y : Except Fail α} (h : SameR I g x y) :
    (∃ e, x = .error e ∧ y = .error e) ∨ ∃ a r, x = .ok (a, r) ∧ y = .ok a ∧ I r (g a) := by
  cases x with
  | error e =>
    cases y with
    | error e' => exact .inl ⟨e, rfl, by rw [show e = e' from h]⟩
    | ok a => exact h.elim
  | ok ar =>
    obtain ⟨a, r⟩ := ar
    cases y with
    | error e' => exact h.elim
    | ok a' => obtain ⟨rfl, hi⟩ := h; exact .inr ⟨a, r, rfl, rfl, hi⟩

section
variable {H : ReadHandler ρ} {o : Oracle} {I : ρ → Src → Prop}

theorem same_updateRaw (hA : ActsAs H o I) (st : RS) (r : ρ) (hi : I r st.src) : SameR I RS.src (updateRawH H st r) (updateRaw o st) := by
  unfold updateRawH updateRaw
  by_cases h1 : st.rawOff = 0 ∧ st.raw.length = rawCap
  · rw [if_pos h1, if_pos h1]; exact ⟨rfl, hi⟩
  rw [if_neg h1, if_neg h1]
  by_cases h2 : st.eof = true
  · rw [if_pos h2, if_pos h2]; exact ⟨rfl, hi⟩
  rw [if_neg h2, if_neg h2]
  have h := hA r st.src (rawCap - st.raw.length) (by omega) hi
  simp only
  cases hH : H r (rawCap - st.raw.length) with
  | error e => rw [hH] at h; exact h.elim
  | ok a =>
    obtain ⟨a, r'⟩ := a
    cases hR : st.src.read o (rawCap - st.raw.length) with
    | none =>
      rw [hH, hR] at h
      cases a with
      | none => exact rfl
      | some l => exact h.elim
    | some b =>
      obtain ⟨l', s'⟩ := b
      rw [hH, hR] at h
      cases a with
      | none => exact h.elim
      | some l =>
        obtain ⟨rfl, hi'⟩ := h
        obtain ⟨hl, rfl⟩ := read_some hR
        simp only
        rw [if_neg (by omega)]
        refine ⟨rfl, ?_⟩
        split <;> exact hi'

theorem same_needThree (hA : ActsAs H o I) (fuel : Nat) (st : RS) (r : ρ) (hi : I r st.src) :
    SameR I RS.src (needThreeH H fuel st r) (needThree o fuel st) := by
  induction fuel generalizing st r with
  | zero => exact rfl
  | succ fuel ih =>
    unfold needThreeH needThree
    split
    · rcases (same_updateRaw hA st r hi).cases with ⟨e, h1, h2⟩ | ⟨a, r', h1, h2, h3⟩
      · rw [h1, h2]; exact rfl
      · rw [h1, h2]; exact ih a r' h3
    · exact ⟨rfl, hi⟩

theorem detectBom_src (st : RS) : (detectBom st).src = st.src := by
  unfold detectBom
  split
  · rfl
  split
  · rfl
  split <;> rfl

theorem same_ensureEncoding (hA : ActsAs H o I) (st : RS) (r : ρ) (hi : I r st.src) :
    SameR I RS.src (ensureEncodingH H st r) (ensureEncoding o st) := by
  unfold ensureEncodingH ensureEncoding determineEncodingH determineEncoding
  cases st.enc with
  | none =>
    simp only
    rcases (same_needThree hA 5 st r hi).cases with ⟨e, h1, h2⟩ | ⟨a, r', h1, h2, h3⟩
    · rw [h1, h2]; exact rfl
    · rw [h1, h2]; exact ⟨rfl, by rw [detectBom_src]; exact h3⟩
  | some e => exact ⟨rfl, hi⟩

theorem store_src {st st' : RS} {l : List UInt8} (h : st.store l = .ok st') : st'.src = st.src := by
  unfold RS.store at h
  split at h
  · cases h; rfl
  · cases h

theorem decodeLoop_src {e : Enc} {fuel : Nat} {st st' : RS} (h : decodeLoop e fuel st = .ok st') : st'.src = st.src := by
  induction fuel generalizing st with
  | zero => cases h
  | succ fuel ih =>
    unfold decodeLoop at h
    split at h
    · cases h; rfl
    · split at h
      · cases h
      · cases h; rfl
      · split at h
        · cases h
        · simp only at h
          split at h
          · cases h
          · rename_i hst
            rw [ih h]
            have h2 := store_src hst
            exact h2

theorem same_fillLoop (hA : ActsAs H o I) (e : Enc) (length fuel : Nat) (first : Bool) (st : RS) (r : ρ) (hi : I r st.src) :
    SameR I (fun x : RS × Bool => x.1.src) (fillLoopH H e length fuel first st r) (fillLoop o e length fuel first st) := by
  induction fuel generalizing first st r with
  | zero => exact rfl
  | succ fuel ih =>
    unfold fillLoopH fillLoop
    split
    · have hs : SameR I RS.src (if !first || st.raw.isEmpty then updateRawH H st r else .ok (st, r))
          (if !first || st.raw.isEmpty then updateRaw o st else .ok st) := by
        split
        · exact same_updateRaw hA st r hi
        · exact ⟨rfl, hi⟩
      rcases hs.cases with ⟨e, h1, h2⟩ | ⟨a, r', h1, h2, h3⟩
      · rw [h1, h2]; exact rfl
      · rw [h1, h2]
        simp only
        cases hd : decodeLoop e (a.raw.length + 1) a with
        | error e => exact rfl
        | ok b =>
          simp only
          have hb : I r' b.src := by rw [decodeLoop_src hd]; exact h3
          split
          · cases hst : b.store [0] with
            | error e => exact rfl
            | ok c => exact ⟨rfl, by show I r' c.src; rw [store_src hst]; exact hb⟩
          · exact ih false b r' hb
    · exact ⟨rfl, hi⟩

theorem same_updateBuffer (hA : ActsAs H o I) (st : RS) (r : ρ) (length : Nat) (hi : I r st.src) :
    SameR I RS.src (updateBufferH H st r length) (updateBuffer o st length) := by
  unfold updateBufferH updateBuffer
  split
  · exact ⟨rfl, hi⟩
  split
  · exact ⟨rfl, hi⟩
  rcases (same_ensureEncoding hA st r hi).cases with ⟨e, h1, h2⟩ | ⟨a, r', h1, h2, h3⟩
  · rw [h1, h2]; exact rfl
  rw [h1, h2]
  simp only
  cases he : a.enc with
  | none => exact rfl
  | some e =>
    simp only
    rcases (same_fillLoop hA e length ((moveBuf a).src.rest.length + 3) true (moveBuf a) r' h3).cases with ⟨e, h4, h5⟩ | ⟨⟨b, q⟩, r'', h4, h5, h6⟩
    · rw [h4, h5]; exact rfl
    · rw [h4, h5]
      cases q with
      | true => exact ⟨rfl, h6⟩
      | false =>
        simp only
        split
        · exact rfl
        · exact ⟨rfl, h6⟩

theorem same_cache (hA : ActsAs H o I) (st : RS) (r : ρ) (length : Nat) (hi : I r st.src) :
    SameR I RS.src (cacheH H st r length) (cacheR o st length) := by
  unfold cacheH cacheR
  split
  · exact ⟨rfl, hi⟩
  · exact same_updateBuffer hA st r length hi

theorem skipR_src {st st' : RS} (h : skipR st = .ok st') : st'.src = st.src := by
  unfold skipR at h
  split at h
  · cases h
  · simp only at h
    split at h
    · cases h
    · cases h; rfl

/-- Results of programs that are the same. -/
def SameP {α : Type} (I : ρ → Src → Prop) : Except Fail (α × RS × ρ) → Except Fail (α × RS) → Prop
  | .ok (a, st, r), .ok (a', st') => a = a' ∧ st = st' ∧ I r st'.src
  | .error e, .error e' => e = e'
  | _, _ => False

/-- Programs do the same over the handler and over the oracle. -/
theorem same_run {α : Type} (hA : ActsAs H o I) (p : Prog α) (st : RS) (r : ρ) (hi : I r st.src) :
    SameP I (p.runH H st r) (p.runR o st) := by
  induction p generalizing st r with
  | ret a => exact ⟨rfl, rfl, hi⟩
  | fail e => exact rfl
  | cache n k ih =>
    unfold Prog.runH Prog.runR
    rcases (same_cache hA st r n hi).cases with ⟨e, h1, h2⟩ | ⟨a, r', h1, h2, h3⟩
    · rw [h1, h2]; exact rfl
    · rw [h1, h2]; exact ih a r' h3
  | look j k ih =>
    unfold Prog.runH Prog.runR
    cases lookR st j with
    | error e => exact rfl
    | ok c => exact ih c st r hi
  | skip k ih =>
    unfold Prog.runH Prog.runR
    cases h : skipR st with
    | error e => exact rfl
    | ok st' => exact ih st' r (by rw [skipR_src h]; exact hi)

/-- Related states of the two sources of tokens. -/
def SrcPair (I : ρ → Src → Prop) (x : Scanner × RS × ρ) (y : Scanner × RS) : Prop := x.1 = y.1 ∧ x.2.1 = y.2 ∧ I x.2.2 y.2.src

theorem handler_simulates (hA : ActsAs H o I) (f : Nat) : Simulates (handlerSrc H f) (scannerSrc o f) (SrcPair I) := by
  rintro ⟨s, st, r⟩ ⟨s', st'⟩ ⟨h1, h2, h3⟩
  cases h1
  cases h2
  refine ⟨rfl, ?_⟩
  simp only [handlerSrc, scannerSrc, onHandler, onReader]
  have := same_run hA (nextToken f s) st r h3
  cases hx : (nextToken f s).runH H st r with
  | error e =>
    rw [hx] at this
    cases hy : (nextToken f s).runR o st with
    | error e' => rw [hy] at this; exact this
    | ok b => rw [hy] at this; exact this.elim
  | ok a =>
    obtain ⟨⟨t, s1⟩, st1, r1⟩ := a
    rw [hx] at this
    cases hy : (nextToken f s).runR o st with
    | error e' => rw [hy] at this; exact this.elim
    | ok b =>
      obtain ⟨⟨t', s2⟩, st2⟩ := b
      rw [hy] at this
      obtain ⟨h4, h5, h6⟩ := this
      cases h4
      cases h5
      exact ⟨rfl, rfl, rfl, h6⟩

/-- States of `yaml_parser_scan` that correspond. -/
def ScanRel (I : ρ → Src → Prop) (x : ScanSt (RS × ρ)) (y : ScanSt RS) : Prop :=
  x.scanner = y.scanner ∧ x.input.1 = y.input ∧ I x.input.2 y.input.src ∧ x.ended = y.ended ∧ x.error = y.error

theorem handler_scanRun (hA : ActsAs H o I) (f k : Nat) {x : ScanSt (RS × ρ)} {y : ScanSt RS} (h : ScanRel I x y) :
    (scanRunH H f x k).1 = (scanRun o f y k).1 ∧ ScanRel I (scanRunH H f x k).2 (scanRun o f y k).2 := by
  induction k with
  | zero => exact ⟨rfl, h⟩
  | succ k ih =>
    obtain ⟨h1, h2⟩ := ih
    unfold scanRunH scanRun
    simp only [h1]
    generalize (scanRunH H f x k).2 = u at h2
    generalize (scanRun o f y k).2 = v at h2
    obtain ⟨us, ⟨ui, ur⟩, ue, uf⟩ := u
    obtain ⟨vs, vi, ve, vf⟩ := v
    obtain ⟨h3, h4, h5, h6, h7⟩ := h2
    simp only at h3 h4 h5 h6 h7
    subst h3 h4 h6 h7
    unfold scanCall
    by_cases hb : (ue || uf.isSome) = true
    · simp only [hb, if_true]
      exact ⟨trivial, rfl, rfl, h5, rfl, rfl⟩
    simp only [hb, if_false]
    have := same_run hA (nextToken f us) ui ur h5
    simp only [onHandler, onReader]
    cases hx : (nextToken f us).runH H ui ur with
    | error e =>
      rw [hx] at this
      cases hy : (nextToken f us).runR o ui with
      | error e' =>
        rw [hy] at this
        cases (show e = e' from this)
        exact ⟨rfl, rfl, rfl, h5, rfl, rfl⟩
      | ok b => rw [hy] at this; exact this.elim
    | ok a =>
      obtain ⟨⟨t, s1⟩, st1, r1⟩ := a
      rw [hx] at this
      cases hy : (nextToken f us).runR o ui with
      | error e' => rw [hy] at this; exact this.elim
      | ok b =>
        obtain ⟨⟨t', s2⟩, st2⟩ := b
        rw [hy] at this
        obtain ⟨h8, h9, h10⟩ := this
        cases h8
        cases h9
        exact ⟨rfl, rfl, rfl, h10, rfl, rfl⟩

end

/-! ### Any handler over a fixed content -/

/-- The data of the handler after the calls with these sizes, the latest first. -/
def replay (H : ReadHandler ρ) (r : ρ) : List Nat → Option ρ
  | [] => some r
  | n :: h =>
    match replay H r h with
    | none => none
    | some q =>
      match H q n with
      | .ok (some _, q') => some q'
      | _ => none

/-- The oracle that does what the handler does. -/
def replyOracle (H : ReadHandler ρ) (r : ρ) : Oracle
  | [] => some 0
  | n :: h =>
    match replay H r h with
    | none => some 0
    | some q =>
      match H q n with
      | .ok (some l, _) => some l.length
      | .ok (none, _) => none
      | .error _ => some 0

theorem replyOracle_noFail {H : ReadHandler ρ} (h : NeverFails H) (r : ρ) : NoFail (replyOracle H r) := by
  intro l
  unfold replyOracle
  split
  · simp
  · split
    · simp
    · split
      · simp
      · rename_i hx; exact absurd hx (h _ _ _)
      · simp

theorem serves_agrees {H : ReadHandler ρ} {good : ρ → List UInt8 → Prop} (hS : Serves H good) (r0 : ρ) :
    ActsAs H (replyOracle H r0) fun r s => good r s.rest ∧ replay H r0 s.asked = some r := by
  intro r s size _ ⟨hg, hr⟩
  obtain ⟨a, r', h1, h2⟩ := hS r s.rest size hg
  rw [h1]
  unfold Src.read
  cases a with
  | none =>
    have : replyOracle H r0 (size :: s.asked) = none := by simp [replyOracle, hr, h1]
    rw [this]
    trivial
  | some l =>
    have : replyOracle H r0 (size :: s.asked) = some l.length := by simp [replyOracle, hr, h1]
    rw [this]
    obtain ⟨h3, h4, c', h5, h6⟩ := h2 l rfl
    have hrep : replay H r0 (size :: s.asked) = some r' := by simp [replay, hr, h1]
    have htake : s.rest.take (min (max 1 l.length) size) = l ∧ s.rest.drop (min (max 1 l.length) size) = c' := by
      by_cases hl : l = []
      · subst hl
        rw [List.nil_append] at h5
        subst h5
        rcases h4 rfl with h | h
        · simp [h]
        · simp [h]
      · have : 0 < l.length := List.length_pos_iff.mpr hl
        rw [show min (max 1 l.length) size = l.length by omega, h5]
        simp
    simp only [htake.1, htake.2]
    exact ⟨trivial, h6, hrep⟩

/-! ### The handlers of the library -/

theorem string_agrees (mem : List UInt8) (size : Nat) (hm : size ≤ mem.length) : ActsAs stringRead (fun _ => some rawCap)
    fun r s => r.mem = mem ∧ r.stop = size ∧ r.current ≤ size ∧ s.rest = (mem.take size).drop r.current := by
  rintro ⟨m, stop, cur⟩ s n hn ⟨rfl, rfl, h1, h2⟩
  simp only at h1 h2 hm
  unfold stringRead Src.read
  simp only
  by_cases h3 : cur = stop
  · rw [if_pos h3]
    have : s.rest = [] := by
      rw [h2, h3]
      exact List.drop_eq_nil_of_le (by rw [List.length_take]; omega)
    simp only [this, List.take_nil, List.drop_nil]
    refine ⟨trivial, trivial, trivial, h1, ?_⟩
    rw [← h2, this]
  · rw [if_neg h3, if_neg (by omega)]
    have hmin : min (max 1 rawCap) n = n := by
      have : 1 ≤ rawCap := by decide
      omega
    rw [hmin]
    have hlen : s.rest.length = stop - cur := by
      rw [h2, List.length_drop, List.length_take]; omega
    by_cases h4 : n > stop - cur
    · rw [if_pos h4, if_neg (by omega)]
      have hd : s.rest.drop n = [] := List.drop_eq_nil_of_le (by omega)
      have ht : s.rest.take n = s.rest := List.take_of_length_le (by omega)
      simp only [hd, ht]
      refine ⟨?_, trivial, trivial, by omega, ?_⟩
      · rw [h2, List.drop_take]
      · symm
        exact List.drop_eq_nil_of_le (by rw [List.length_take]; omega)
    · rw [if_neg h4, if_neg (by omega)]
      refine ⟨?_, rfl, rfl, by show cur + n ≤ stop; omega, ?_⟩
      · rw [h2, List.drop_take, List.take_take, Nat.min_eq_left (by omega)]
      · show s.rest.drop n = _
        rw [h2, List.drop_drop]

theorem file_serves {φ : Type} {F : Files φ} {good : φ → List UInt8 → Prop} (h : FileReads F good) : Serves (fileRead F) good := by
  intro f c size hg
  obtain ⟨c', h1, h2, h3, h4⟩ := h f c size hg
  refine ⟨_, _, rfl, fun l hl => ?_⟩
  split at hl
  · cases hl
  · rename_i he
    injection hl with hl
    subst hl
    refine ⟨h2, fun hn => ?_, c', h1, h4⟩
    by_cases hz : size = 0
    · exact .inl hz
    · right
      rcases h3 (by rw [hn]; simp; omega) with h | h
      · exact absurd h he
      · rw [h1, hn, h]; rfl

end LibYaml
