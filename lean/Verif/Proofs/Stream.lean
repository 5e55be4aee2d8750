import Verif.Proofs.Reader

/-! The reader as a stream of characters: whatever the chunking, `CACHE` and `SKIP` walk along one fixed list. -/

namespace LibYaml

open Spec

/-- The encoding and the bytes that are still to be decoded. -/
def pending (st : RS) : Enc × List UInt8 :=
  match st.enc with
  | some e => (e, st.raw ++ st.src.rest)
  | none => detect (st.raw ++ st.src.rest)

/-- The offset of the end of the input. -/
def total (st : RS) : Nat := st.offset + st.raw.length + st.src.rest.length

/-- The reader state `st` will deliver the characters `s` (including the final NUL), in the working buffer or
later. `bad = some er`: after `s` comes something that cannot be decoded, to be reported as `er`. -/
structure Stream (st : RS) (s : List Nat) (bad : Option RFail) : Prop where
  cap : st.bufOff + st.buf.length ≤ bufCap
  rawcap : st.rawOff + st.raw.length ≤ rawCap
  size : total st < maxFileSize
  fresh : st.enc = none → st.raw = [] ∧ st.eof = false
  chars : ∃ cur, Rep st cur ∧
    (st.eof = true → st.raw = [] ∧ st.src.rest = [] ∧ s = cur ∧ bad = none) ∧
    (st.eof = false → ∃ good tail, Split (pending st).1 (pending st).2 good tail ∧
      s = cur ++ good ++ (if tail = [] then [0] else []) ∧
      bad = if tail = [] then none else some (errAt (pending st).1 (total st - tail.length) tail))

theorem needThree_spec (o : Oracle) (fuel : Nat) (st : RS)
    (hf : (if st.eof then 0 else 4 - min 3 st.raw.length) < fuel) (hraw : st.rawOff + st.raw.length ≤ rawCap)
    (heof : st.eof = true → st.src.rest = []) :
    (∃ er, needThree o fuel st = .error er ∧ InputErr o er) ∨ ∃ st', needThree o fuel st = .ok st' ∧ st'.raw ++ st'.src.rest = st.raw ++ st.src.rest ∧
      st'.rawOff + st'.raw.length ≤ rawCap ∧ st'.buf = st.buf ∧ st'.unread = st.unread ∧ st'.bufOff = st.bufOff ∧
      st'.enc = st.enc ∧ st'.offset = st.offset ∧ (st'.eof = true → st'.src.rest = []) ∧
      (st'.eof = true ∨ 3 ≤ st'.raw.length) := by
  induction fuel generalizing st with
  | zero => omega
  | succ fuel ih =>
    unfold needThree
    by_cases hc : (!st.eof && decide (st.raw.length < 3)) = true
    · rw [if_pos hc]
      simp only [Bool.and_eq_true, Bool.not_eq_true', decide_eq_true_eq] at hc
      rcases updateRaw_spec o st (by unfold rawCap; omega) hc.1 with
        ⟨er, u1, u2⟩ | ⟨st1, u1, u2, u3, u4, u5, u6, u7, u8, u0, u9⟩
      · rw [u1]; exact Or.inl ⟨er, rfl, u2⟩
      rw [u1]
      simp only
      rw [hc.1] at hf
      simp only [Bool.false_eq_true, if_false] at hf
      rcases ih st1
        (by rcases u9 with ⟨h1, _, _, h4⟩ | ⟨h1, _, h3⟩
            · rw [h1]; simp; omega
            · rw [h1]; simp; omega)
        (by omega)
        (by rcases u9 with ⟨_, h2, _⟩ | ⟨h1, _⟩
            · exact fun _ => h2
            · rw [h1]; intro h; cases h)
        with hbad | ⟨st', v1, v2, v3, v4, v5, v6, v7, v8, v9, v10⟩
      · exact Or.inl hbad
      exact Or.inr ⟨st', v1, by rw [v2, u2], v3, by rw [v4, u4], by rw [v5, u5], by rw [v6, u6], by rw [v7, u7],
        by rw [v8, u8], v9, v10⟩
    · rw [if_neg hc]
      refine Or.inr ⟨st, rfl, rfl, hraw, rfl, rfl, rfl, rfl, rfl, heof, ?_⟩
      simp only [Bool.and_eq_true, Bool.not_eq_true', decide_eq_true_eq, not_and] at hc
      cases h : st.eof
      · right; have := hc h; omega
      · left; rfl

theorem detectBom_spec (st : RS) (h3 : 3 ≤ st.raw.length ∨ st.src.rest = []) :
    (detectBom st).enc = some (detect (st.raw ++ st.src.rest)).1 ∧
    (detectBom st).raw ++ (detectBom st).src.rest = (detect (st.raw ++ st.src.rest)).2 ∧
    (detectBom st).rawOff + (detectBom st).raw.length ≤ st.rawOff + st.raw.length ∧
    (detectBom st).offset + (detectBom st).raw.length = st.offset + st.raw.length ∧
    (detectBom st).src = st.src ∧ (detectBom st).buf = st.buf ∧ (detectBom st).unread = st.unread ∧
    (detectBom st).bufOff = st.bufOff ∧ (detectBom st).eof = st.eof := by
  unfold detectBom
  split
  · rename_i h
    match hr : st.raw, h with
    | a :: b :: r, h =>
      simp at h; obtain ⟨rfl, rfl⟩ := h
      simp [detect]; omega
    | [a], h => simp at h
  split
  · rename_i h0 h
    match hr : st.raw, h with
    | a :: b :: r, h =>
      simp at h; obtain ⟨rfl, rfl⟩ := h
      simp [detect]; omega
    | [a], h => simp at h
  split
  · rename_i h0 h1 h
    match hr : st.raw, h with
    | a :: b :: c :: r, h =>
      simp at h; obtain ⟨rfl, rfl, rfl⟩ := h
      simp [detect]; omega
    | [a], h => simp at h
    | [a, b], h => simp at h
  · rename_i h0 h1 h2
    have : detect (st.raw ++ st.src.rest) = (.utf8, st.raw ++ st.src.rest) := by
      match hr : st.raw, h0, h1, h2, h3 with
      | [], _, _, _, h3 =>
        have : st.src.rest = [] := by simpa using h3
        rw [this]; rfl
      | [a], _, _, _, h3 =>
        have : st.src.rest = [] := by simpa using h3
        rw [this]; unfold detect; split <;> simp_all
      | [a, b], h0, h1, _, h3 =>
        have : st.src.rest = [] := by simpa using h3
        rw [this]; unfold detect; split <;> simp_all
      | a :: b :: c :: r, h0, h1, h2, _ =>
        unfold detect; split <;> simp_all
    rw [this]
    simp

theorem determineEncoding_spec (o : Oracle) (st : RS) (henc : st.enc = none) (hraw : st.raw = [])
    (hro : st.rawOff ≤ rawCap)
    (heof : st.eof = false) :
    (∃ er, determineEncoding o st = .error er ∧ InputErr o er) ∨
    ∃ st' e, determineEncoding o st = .ok st' ∧ st'.enc = some e ∧ pending st' = pending st ∧
      st'.rawOff + st'.raw.length ≤ rawCap ∧ st'.buf = st.buf ∧ st'.unread = st.unread ∧ st'.bufOff = st.bufOff ∧
      total st' = total st ∧
      (st'.eof = true → st'.src.rest = []) := by
  rcases needThree_spec o 5 st (by rw [hraw, heof]; decide) (by rw [hraw]; simpa using hro) (by rw [heof]; intro h; cases h)
    with ⟨er, u1, u2⟩ | ⟨st1, u1, u2, u3, u4, u5, u6, u7, u8, u9, u10⟩
  · left; exact ⟨er, by unfold determineEncoding; rw [u1], u2⟩
  have hb := detectBom_spec st1 (by rcases u10 with h | h
                                    · exact Or.inr (u9 h)
                                    · exact Or.inl h)
  obtain ⟨b1, b2, b3, b4, b5, b6, b7, b8, b9⟩ := hb
  refine Or.inr ⟨detectBom st1, (detect (st1.raw ++ st1.src.rest)).1, by unfold determineEncoding; rw [u1], b1, ?_, by omega,
    by rw [b6, u4], by rw [b7, u5], by rw [b8, u6], ?_, by rw [b9, b5]; exact u9⟩
  · unfold pending
    rw [b1, henc]
    simp only
    rw [b2, u2]
  · have := congrArg List.length u2
    simp only [List.length_append] at this
    unfold total
    rw [b5]; omega

/-- `CACHE`: for every chunking, requesting at most 6144 characters either keeps the stream and makes enough of it
available, or fails with a reader error: the handler's, or the one of the first undecodable place. -/
theorem cache_spec (o : Oracle) (st : RS) (s : List Nat) (bad : Option RFail) (n : Nat) (hn : n ≤ 6144)
    (h : Stream st s bad) :
    (∃ st', cacheR o st n = .ok st' ∧ Stream st' s bad ∧ st.unread ≤ st'.unread ∧ min n s.length ≤ st'.unread ∧
        (bad ≠ none → n ≤ st'.unread))
    ∨ (∃ er, cacheR o st n = .error er ∧ (InputErr o er ∨ bad = some er)) := by
  unfold cacheR
  by_cases hun : st.unread ≥ n
  · rw [if_pos hun]
    left; exact ⟨st, rfl, h, by omega, by omega, fun _ => hun⟩
  rw [if_neg hun]
  obtain ⟨hcap, hrawcap, hsize, hfresh, cur, hrep, hteof, hfeof⟩ := h
  unfold updateBuffer
  by_cases hdone : st.eof = true ∧ st.raw.isEmpty = true
  · rw [if_pos hdone]
    have := hteof hdone.1
    left
    refine ⟨st, rfl, ⟨hcap, hrawcap, hsize, hfresh, cur, hrep, hteof, hfeof⟩, by omega, ?_, ?_⟩
    · rw [this.2.2.1, hrep.unread]; omega
    · intro hv; exact absurd this.2.2.2 hv
  rw [if_neg hdone, if_neg hun]
  have heof : st.eof = false := by
    cases hh : st.eof
    · rfl
    · have := (hteof hh).1
      exact absurd ⟨hh, by rw [this]; rfl⟩ hdone
  obtain ⟨good, tail, hsp, hs, hv⟩ := hfeof heof
  -- the state with a known encoding
  have hE : (∃ er, ensureEncoding o st = .error er ∧ InputErr o er) ∨
      ∃ st1 e, ensureEncoding o st = .ok st1 ∧ st1.enc = some e ∧ pending st1 = pending st ∧
      st1.rawOff + st1.raw.length ≤ rawCap ∧ st1.buf = st.buf ∧ st1.unread = st.unread ∧ st1.bufOff = st.bufOff ∧
      total st1 = total st ∧
      (st1.eof = true → st1.src.rest = []) := by
    unfold ensureEncoding
    cases henc : st.enc with
    | none => exact determineEncoding_spec o st henc (hfresh henc).1 (by omega) (hfresh henc).2
    | some e => exact Or.inr ⟨st, e, rfl, henc, rfl, hrawcap, rfl, rfl, rfl, rfl, by rw [heof]; intro hh; cases hh⟩
  rcases hE with ⟨er, k1, k2⟩ | ⟨st1, e, k1, k2, k3, k4, k5, k6, k7, k8, k9⟩
  · simp only [k1]
    exact Or.inr ⟨er, rfl, Or.inl k2⟩
  simp only [k1, k2]
  have hp : pending st1 = (e, st1.raw ++ st1.src.rest) := by unfold pending; rw [k2]
  rw [← k3, hp] at hsp hv
  have hrep1 : Rep (moveBuf st1) cur := ⟨by simp only [moveBuf]; rw [k5]; exact hrep.buf,
    by simp only [moveBuf]; rw [k6]; exact hrep.unread, hrep.scalar⟩
  have hoffs : st1.offset + (encodes e good).length = total st - tail.length := by
    have := congrArg List.length hsp.eq
    simp only [List.length_append] at this
    rw [← k8]; unfold total; omega
  rcases fillLoop_spec o e n hn ((moveBuf st1).src.rest.length + 3) true (moveBuf st1) cur good tail
    (by simp) hrep1 (by simpa [moveBuf] using hsp) rfl (by simpa [moveBuf] using k4)
    (by simpa [moveBuf] using k9) (by intro hh; cases hh) (by simp only [moveBuf]; rw [k5]; omega)
    with ⟨st', g1, g2, g3, g4, g5, g6, g7, g8, g9, g0⟩ | ⟨st', new, good', g1, g2, g3, g4, g5, g6, g7, g8, g9, g10, g11⟩ |
      ⟨er, g1, g2⟩
  · rw [g1]
    left
    refine ⟨st', rfl, ⟨g7, g0, ?_, ?_, cur ++ good ++ [0], g6, ?_, ?_⟩, ?_, ?_, ?_⟩
    · unfold total at *
      simp only [moveBuf] at g9
      rw [g3, g4]
      simp; omega
    · intro hh; rw [g8] at hh; simp only [moveBuf] at hh; rw [k2] at hh; cases hh
    · intro _; exact ⟨g3, g4, by rw [hs, g5]; simp, by rw [hv, g5]; rfl⟩
    · intro hh; rw [g2] at hh; cases hh
    · rw [g6.unread, hrep.unread]; simp
    · rw [g6.unread, hs, g5]; simp; omega
    · intro hh; rw [hv, g5] at hh; simp at hh
  · rw [g1]
    simp only
    have htot : total st' = total st := by
      rw [← k8]; unfold total; simpa only [moveBuf] using g11
    have hoff : ¬ st'.offset ≥ maxFileSize := by unfold total at *; omega
    rw [if_neg hoff]
    left
    have heof' : st'.eof = false := by
      rcases g5 with hh | hh | hh
      · cases hh
      · rw [g6]; exact hh
      · rw [← hrep.unread] at hh; omega
    refine ⟨st', rfl, ⟨g9, g7, by omega, ?_, cur ++ new, g3, ?_, ?_⟩, ?_, ?_, ?_⟩
    · intro hh; rw [g10] at hh; simp only [moveBuf] at hh; rw [k2] at hh; cases hh
    · intro hh; rw [heof'] at hh; cases hh
    · intro _
      have hp' : pending st' = (e, st'.raw ++ st'.src.rest) := by
        unfold pending; rw [g10]; simp only [moveBuf]; rw [k2]
      rw [hp', htot]
      exact ⟨good', tail, g4, by rw [hs, g2]; simp, hv⟩
    · rw [g3.unread, hrep.unread]; simp
    · rw [g3.unread]; omega
    · intro _; rw [g3.unread]; exact g8
  · right
    rw [g1]
    refine ⟨er, rfl, ?_⟩
    rcases g2 with g2 | ⟨ht, g2⟩
    · exact Or.inl g2
    · right
      rw [hv, if_neg ht, g2]
      simp only [moveBuf]
      rw [hoffs]

end LibYaml
