import Verif.Proofs.Decode

/-! Refilling the reader's buffers: the characters delivered are those of the input bytes. -/

namespace LibYaml

open Spec

/-! ### Splitting a byte string into its decodable prefix and the rest -/

theorem encodes_cons (e : Enc) (c : Nat) (cs : List Nat) : encodes e (c :: cs) = encode e c ++ encodes e cs := rfl

theorem encodes_append (e : Enc) (a b : List Nat) : encodes e (a ++ b) = encodes e a ++ encodes e b := by
  simp [encodes]

theorem utf8s_append (a b : List Nat) : utf8s (a ++ b) = utf8s a ++ utf8s b := by simp [utf8s]

theorem stuck_nil (e : Enc) : Stuck e [] := by
  intro c r _ h
  have := congrArg List.length h
  have := encode_length_pos e c
  simp at *
  omega

theorem exists_split (e : Enc) (bytes : List UInt8) : ∃ good tail, Split e bytes good tail := by
  by_cases h : Stuck e bytes
  · exact ⟨[], bytes, by simp [encodes], by simp, h⟩
  · have : ∃ c r, Permitted c ∧ bytes = encode e c ++ r := by
      unfold Stuck at h
      simp only [Classical.not_forall] at h
      obtain ⟨c, r, hc, hn⟩ := h
      exact ⟨c, r, hc, Classical.not_not.mp hn⟩
    obtain ⟨c, r, hc, rfl⟩ := this
    obtain ⟨good, tail, hs⟩ := exists_split e r
    refine ⟨c :: good, tail, ?_, ?_, hs.stuck⟩
    · rw [encodes_cons, hs.eq]; simp
    · intro x hx
      rcases List.mem_cons.mp hx with rfl | hx
      · exact hc
      · exact hs.perm x hx
termination_by bytes.length
decreasing_by
  subst_vars
  have := encode_length_pos e c
  simp; omega

theorem stepUtf16_eof (le : Bool) (off : Nat) (raw : List UInt8) : stepUtf16 le true off raw ≠ .incomplete := by
  match raw with
  | [] => simp [stepUtf16]
  | [_] => simp [stepUtf16]
  | b0 :: b1 :: rest =>
    simp only [stepUtf16]
    intro h
    split at h
    · cases h
    split at h
    · match rest, h with
      | [], h => simp at h
      | [_], h => simp at h
      | b2 :: b3 :: _, h =>
        simp only at h
        split at h <;> cases h
    · cases h

theorem stepUtf16_incomplete_len {le eof : Bool} {off : Nat} {raw : List UInt8}
    (h : stepUtf16 le eof off raw = .incomplete) : raw.length ≤ 3 := by
  match raw, h with
  | [], _ => simp
  | [_], _ => simp
  | [_, _], _ => simp
  | [_, _, _], _ => simp
  | b0 :: b1 :: b2 :: b3 :: rest, h =>
    simp only [stepUtf16] at h
    split at h
    · cases h
    split at h
    · split at h <;> cases h
    · cases h

theorem step_eof {e : Enc} {off : Nat} {raw : List UInt8} (h : raw ≠ []) : step e true off raw ≠ .incomplete := by
  cases e
  · match raw with
    | b :: rest =>
      simp only [step, stepUtf8]
      intro h; split at h
      · cases h
      split at h
      · simp at h
      split at h
      · cases h
      split at h
      · cases h
      split at h <;> cases h
  all_goals exact stepUtf16_eof _ _ _

theorem step_incomplete_len {e : Enc} {eof : Bool} {off : Nat} {raw : List UInt8}
    (h : step e eof off raw = .incomplete) : raw.length ≤ 3 := by
  cases e
  · match raw with
    | [] => simp
    | b :: rest =>
      simp only [step, stepUtf8] at h
      split at h
      · cases h
      split at h
      · rename_i hw
        have := toNat_lt b
        rw [width_eq _ this] at hw
        split at hw
        · omega
        · (repeat' split at hw) <;> omega
      split at h
      · cases h
      split at h
      · cases h
      split at h <;> cases h
  all_goals exact stepUtf16_incomplete_len h

/-- Two lists whose appends agree: one is a prefix of the other. -/
theorem append_cases {α} {a b c d : List α} (h : a ++ b = c ++ d) :
    (∃ r, a = c ++ r ∧ d = r ++ b) ∨ (∃ q, q ≠ [] ∧ c = a ++ q ∧ b = q ++ d) := by
  rcases List.append_eq_append_iff.mp h with ⟨q, h1, h2⟩ | ⟨r, h1, h2⟩
  · by_cases hq : q = []
    · subst hq; left; exact ⟨[], by simp_all, by simp_all⟩
    · right; exact ⟨q, hq, h1, h2⟩
  · left; exact ⟨r, h1, h2⟩

theorem step_good {e : Enc} {eof : Bool} {off : Nat} {raw rest tail : List UInt8} {c : Nat} {good : List Nat}
    (hs : Split e (raw ++ rest) (c :: good) tail) (he : eof = true → rest = []) :
    (step e eof off raw = .char c (encode e c).length ∧ raw = encode e c ++ raw.drop (encode e c).length ∧
      Split e (raw.drop (encode e c).length ++ rest) good tail)
    ∨ (eof = false ∧ step e eof off raw = .incomplete) := by
  have hc : Permitted c := hs.perm c (by simp)
  have heq := hs.eq
  rw [encodes_cons, List.append_assoc] at heq
  rcases append_cases heq with ⟨r, h1, h2⟩ | ⟨q, hq, h1, h2⟩
  · left
    refine ⟨?_, ?_, ?_, ?_, hs.stuck⟩
    · rw [h1]; exact step_of_encode e eof off c r (permitted_scalar hc)
    · rw [h1]; simp
    · rw [h1]; simp [h2]
    · intro x hx; exact hs.perm x (by simp [hx])
  · right
    have : eof = false := by
      cases eof
      · rfl
      · have := he rfl; subst this
        cases q with
        | nil => exact absurd rfl hq
        | cons _ _ => simp at h2
    subst this
    exact ⟨rfl, step_incomplete e off c raw q (permitted_scalar hc) h1 hq⟩

theorem step_bad {e : Enc} {eof : Bool} {off : Nat} {raw rest tail : List UInt8} {v w : Nat}
    (hs : Split e (raw ++ rest) [] tail) (h : step e eof off raw = .char v w) : ¬ Permitted v := by
  intro hp
  have h1 := (step_char h).1
  have := hs.eq
  simp only [encodes, List.flatMap_nil, List.nil_append] at this
  exact hs.stuck v (raw.drop w ++ rest) hp (by rw [← this]; conv => lhs; rw [h1]; simp)

theorem stepUtf16_mono {le eof : Bool} {off : Nat} {raw rest : List UInt8}
    (h : stepUtf16 le eof off raw ≠ .incomplete) (he : eof = true → rest = []) :
    stepUtf16 le true off (raw ++ rest) = stepUtf16 le eof off raw := by
  cases eof with
  | true => rw [he rfl]; simp
  | false =>
    match raw, h with
    | [], h => simp [stepUtf16] at h
    | [_], h => simp [stepUtf16] at h
    | [b0, b1], h =>
      simp only [stepUtf16, List.cons_append, List.nil_append] at h ⊢
      split
      · rfl
      rename_i h1
      rw [if_neg h1] at h
      split
      · rename_i h2
        rw [if_pos h2] at h
        simp at h
      · rfl
    | [b0, b1, b2], h =>
      simp only [stepUtf16, List.cons_append, List.nil_append] at h ⊢
      split
      · rfl
      rename_i h1
      rw [if_neg h1] at h
      split
      · rename_i h2
        rw [if_pos h2] at h
        simp at h
      · rfl
    | b0 :: b1 :: b2 :: b3 :: r, h => rfl

theorem step_mono {e : Enc} {eof : Bool} {off : Nat} {raw rest : List UInt8} (hne : raw ≠ [])
    (h : step e eof off raw ≠ .incomplete) (he : eof = true → rest = []) :
    step e true off (raw ++ rest) = step e eof off raw := by
  cases e with
  | utf8 =>
    cases eof with
    | true => rw [he rfl]; simp
    | false =>
      match raw, hne with
      | b :: r, _ =>
        simp only [step, stepUtf8, List.cons_append] at h ⊢
        split
        · rfl
        rename_i h1
        rw [if_neg h1] at h
        by_cases h2 : width b.toNat > (b :: r).length
        · rw [if_pos h2] at h; simp at h
        · rw [if_neg h2, if_neg (by simp at h2 ⊢; omega)]
          rw [List.take_append_of_le_length (by simp at h2; omega)]
  | utf16le => exact stepUtf16_mono h he
  | utf16be => exact stepUtf16_mono h he

/-- The error reported when the non-empty `tail`, found at byte offset `off`, does not begin with a permitted
character. -/
def errAt (e : Enc) (off : Nat) (tail : List UInt8) : RFail :=
  match step e true off tail with
  | .err p o v => .reader p o v
  | .char v _ => .reader "control characters are not allowed" off v
  | .incomplete => .fuel

/-! ### The decoding loop -/

/-- The working buffer holds exactly the characters `cur`. -/
structure Rep (st : RS) (cur : List Nat) : Prop where
  buf : st.buf = utf8s cur
  unread : st.unread = cur.length
  scalar : ∀ c ∈ cur, IsScalar c

theorem utf8s_length_le (cs : List Nat) : (utf8s cs).length ≤ 4 * cs.length := by
  induction cs with
  | nil => simp [utf8s]
  | cons c cs ih =>
    have := utf8_length_le c
    have : (utf8s (c :: cs)).length = (utf8 c).length + (utf8s cs).length := by simp [utf8s]
    simp only [List.length_cons]; omega

theorem isScalar_zero : IsScalar 0 := by unfold IsScalar; omega

theorem decodeLoop_spec (e : Enc) (fuel : Nat) (st : RS) (cur good : List Nat) (rest tail : List UInt8)
    (hf : st.raw.length < fuel) (hrep : Rep st cur) (hs : Split e (st.raw ++ rest) good tail)
    (heof : st.eof = true → rest = [])
    (hcap : 2 * (st.bufOff + st.buf.length) + 3 * st.raw.length ≤ 2 * bufCap) :
    (∃ st' new good', decodeLoop e fuel st = .ok st' ∧ good = new ++ good' ∧ Rep st' (cur ++ new) ∧
        Split e (st'.raw ++ rest) good' tail ∧
        st'.src = st.src ∧ st'.eof = st.eof ∧ st'.enc = st.enc ∧ st'.bufOff = st.bufOff ∧
        2 * (st'.bufOff + st'.buf.length) + 3 * st'.raw.length ≤ 2 * (st.bufOff + st.buf.length) + 3 * st.raw.length ∧
        st'.offset + st'.raw.length = st.offset + st.raw.length ∧
        st'.rawOff + st'.raw.length = st.rawOff + st.raw.length ∧
        st'.raw.length ≤ 3 ∧ (st.eof = true → st'.raw = []))
    ∨ (tail ≠ [] ∧ decodeLoop e fuel st = .error (errAt e (st.offset + (encodes e good).length) tail)) := by
  induction fuel generalizing st cur good with
  | zero => omega
  | succ fuel ih =>
    unfold decodeLoop
    by_cases hraw : st.raw.isEmpty
    · left
      have : st.raw = [] := by simpa using hraw
      refine ⟨st, [], good, by simp [this], by simp, by simpa using hrep, hs, rfl, rfl, rfl, rfl,
        by omega, rfl, rfl, by simp [this], fun _ => this⟩
    · have hne : st.raw ≠ [] := by simpa using hraw
      rw [if_neg hraw]
      cases good with
      | cons c good =>
        rcases step_good (off := st.offset) hs heof with ⟨h1, h2, h3⟩ | ⟨h1, h2⟩
        · rw [h1]
          have hc : Permitted c := hs.perm c (by simp)
          have hal : allowed c = true := (allowed_iff c).mpr hc
          have hlen : st.raw.length = (encode e c).length + (st.raw.drop (encode e c).length).length := by
            conv => lhs; rw [h2]
            simp
          have hw := utf8_length_vs_encode e c
          have hpos := encode_length_pos e c
          have h8 := utf8_length_pos c
          simp only [hal, Bool.not_true, Bool.false_eq_true, if_false]
          unfold RS.store
          rw [if_pos (by simp only [encodeBuf_eq]; omega)]
          simp only [encodeBuf_eq]
          rcases ih { st with raw := st.raw.drop (encode e c).length, rawOff := st.rawOff + (encode e c).length,
                              offset := st.offset + (encode e c).length, buf := st.buf ++ utf8 c,
                              unread := st.unread + 1 } (cur ++ [c]) good (by simp only; omega)
            (⟨by simp only; rw [utf8s_append, hrep.buf]; simp [utf8s], by simp [hrep.unread],
              by
                intro x hx
                rcases List.mem_append.mp hx with hx | hx
                · exact hrep.scalar x hx
                · rw [List.mem_singleton.mp hx]; exact (permitted_scalar hc)⟩)
            h3 heof (by simp only [List.length_append]; omega)
            with ⟨st', new, good', g1, g2, g3, g4, g5, g6, g7, g8, g9, g10, g11, g12, g13⟩ | g
          · left
            refine ⟨st', c :: new, good', g1, by simp [g2], by simpa using g3, g4, g5, g6, g7, g8, ?_, ?_, ?_, g12, ?_⟩
            · simp only [List.length_append] at g9; omega
            · simp only at g10; omega
            · simp only at g11; omega
            · exact g13
          · right
            refine ⟨g.1, ?_⟩
            rw [g.2, encodes_cons, List.length_append]
            simp only [Nat.add_assoc]
        · rw [h2]
          left
          refine ⟨st, [], c :: good, rfl, by simp, by simpa using hrep, hs, rfl, rfl, rfl, rfl,
            by omega, rfl, rfl, step_incomplete_len h2, fun h => by rw [h1] at h; cases h⟩
      | nil =>
        have htail : tail ≠ [] := by
          intro ht; subst ht
          have := hs.eq
          simp [encodes] at this
          exact hne this.1
        have htl : tail = st.raw ++ rest := by
          have := hs.eq
          simpa [encodes] using this.symm
        have herr : ∀ x, step e st.eof st.offset st.raw = x → x ≠ .incomplete →
            step e true st.offset tail = x := by
          intro x hx hxi
          rw [htl, step_mono hne (by rw [hx]; exact hxi) heof, hx]
        cases hst : step e st.eof st.offset st.raw with
        | err p o v =>
          right
          refine ⟨htail, ?_⟩
          simp [errAt, encodes, herr _ hst (by simp)]
        | incomplete =>
          left
          refine ⟨st, [], [], rfl, by simp, by simpa using hrep, hs, rfl, rfl, rfl, rfl,
            by omega, rfl, rfl, step_incomplete_len hst, ?_⟩
          intro h
          rw [h] at hst
          exact absurd hst (step_eof hne)
        | char v w =>
          right
          have := step_bad hs hst
          have hal : allowed v = false := by
            cases h : allowed v
            · rfl
            · exact absurd ((allowed_iff v).mp h) this
          refine ⟨htail, ?_⟩
          simp [errAt, encodes, herr _ hst (by simp), hal]

/-! ### Refilling -/

/-- The error of a failing handler. -/
def InputErr (o : Oracle) (er : RFail) : Prop := ¬ NoFail o ∧ ∃ off, er = .reader "input error" off (-1)

theorem updateRaw_spec (o : Oracle) (st : RS) (hlt : st.raw.length < rawCap) (heof : st.eof = false) :
    (∃ er, updateRaw o st = .error er ∧ InputErr o er) ∨
    ∃ st', updateRaw o st = .ok st' ∧ st'.raw ++ st'.src.rest = st.raw ++ st.src.rest ∧
      st'.raw.length ≤ rawCap ∧ st'.buf = st.buf ∧ st'.unread = st.unread ∧ st'.bufOff = st.bufOff ∧
      st'.enc = st.enc ∧ st'.offset = st.offset ∧ st'.rawOff = 0 ∧
      ((st'.eof = true ∧ st'.src.rest = [] ∧ st.src.rest = [] ∧ st'.raw = st.raw) ∨
       (st'.eof = false ∧ st'.src.rest.length < st.src.rest.length ∧ st.raw.length < st'.raw.length)) := by
  unfold updateRaw
  rw [if_neg (by omega), heof]
  simp only [Bool.false_eq_true, if_false]
  unfold Src.read
  cases hk : o ((rawCap - st.raw.length) :: st.src.asked) with
  | none => exact Or.inl ⟨_, rfl, fun h => h _ hk, _, rfl⟩
  | some k =>
    right
    simp only
    refine ⟨_, rfl, ?_⟩
    by_cases hr : st.src.rest = []
    · simp [hr]; omega
    · have hpos : 0 < st.src.rest.length := List.length_pos_iff.mpr hr
      have hn : 0 < min (max 1 k) (rawCap - st.raw.length) := by omega
      have hne : (List.take (min (max 1 k) (rawCap - st.raw.length)) st.src.rest).isEmpty = false := by
        rw [List.isEmpty_eq_false_iff]
        intro h
        have := congrArg List.length h
        rw [List.length_take] at this
        simp only [List.length_nil] at this
        omega
      rw [hne]
      simp only [Bool.false_eq_true, if_false, List.append_assoc, List.take_append_drop, List.length_append,
        List.length_take, List.length_drop]
      refine ⟨trivial, by omega, trivial, trivial, trivial, trivial, trivial, trivial, Or.inr ⟨trivial, by omega, by omega⟩⟩

theorem fillLoop_spec (o : Oracle) (e : Enc) (length : Nat) (hlen : length ≤ 6144)
    (fuel : Nat) (first : Bool) (st : RS) (cur good : List Nat) (tail : List UInt8)
    (hf : st.src.rest.length + (if first then 2 else 1) < fuel) (hrep : Rep st cur)
    (hs : Split e (st.raw ++ st.src.rest) good tail)
    (hb0 : st.bufOff = 0) (hraw : st.rawOff + st.raw.length ≤ rawCap)
    (heof : st.eof = true → st.src.rest = [])
    (hfirst : first = false → st.raw.length ≤ 3 ∧ st.eof = false)
    (hcapx : st.buf.length ≤ bufCap) :
    (∃ st', fillLoop o e length fuel first st = .ok (st', true) ∧ st'.eof = true ∧ st'.raw = [] ∧ st'.src.rest = [] ∧
        tail = [] ∧ Rep st' (cur ++ good ++ [0]) ∧ st'.bufOff + st'.buf.length ≤ bufCap ∧ st'.enc = st.enc ∧
        st'.offset = st.offset + st.raw.length + st.src.rest.length ∧ st'.rawOff + st'.raw.length ≤ rawCap)
    ∨ (∃ st' new good', fillLoop o e length fuel first st = .ok (st', false) ∧ good = new ++ good' ∧
        Rep st' (cur ++ new) ∧ Split e (st'.raw ++ st'.src.rest) good' tail ∧
        (first = false ∨ st.eof = false ∨ length ≤ cur.length) ∧
        st'.eof = st.eof ∧ st'.rawOff + st'.raw.length ≤ rawCap ∧ length ≤ (cur ++ new).length ∧
        st'.bufOff + st'.buf.length ≤ bufCap ∧ st'.enc = st.enc ∧
        st'.offset + st'.raw.length + st'.src.rest.length = st.offset + st.raw.length + st.src.rest.length)
    ∨ (∃ er, fillLoop o e length fuel first st = .error er ∧
        (InputErr o er ∨ tail ≠ [] ∧ er = errAt e (st.offset + (encodes e good).length) tail)) := by
  induction fuel generalizing first st cur good with
  | zero => omega
  | succ fuel ih =>
    unfold fillLoop
    by_cases hlt : st.unread < length
    · rw [if_pos hlt]
      -- the raw buffer after the optional read
      have hraw' : (∃ er, (if !first || st.raw.isEmpty then updateRaw o st else .ok st) = .error er ∧ InputErr o er) ∨ ∃ st1, (if !first || st.raw.isEmpty then updateRaw o st else .ok st) = .ok st1 ∧
          st1.raw ++ st1.src.rest = st.raw ++ st.src.rest ∧ st1.rawOff + st1.raw.length ≤ rawCap ∧ st1.buf = st.buf ∧
          st1.unread = st.unread ∧ st1.bufOff = 0 ∧ st1.enc = st.enc ∧ st1.offset = st.offset ∧
          (st1.eof = true → st1.src.rest = []) ∧
          (st1.eof = false → st.eof = false ∧ (st1.src.rest.length + (if first then 1 else 2) ≤ st.src.rest.length + 1)) := by
        by_cases hc : (!first || st.raw.isEmpty) = true
        · rw [if_pos hc]
          cases hst : st.eof with
          | true =>
            have hfst : first = true := by
              cases first
              · have := (hfirst rfl).2; rw [hst] at this; cases this
              · rfl
            have hre : st.raw = [] := by subst hfst; simpa using hc
            refine Or.inr ⟨st, ?_, rfl, hraw, rfl, rfl, hb0, rfl, rfl, heof, ?_⟩
            · unfold updateRaw
              rw [if_neg (by rw [hre]; simp [rawCap]), hst]; rfl
            · intro h; rw [hst] at h; cases h
          | false =>
            have hsmall : st.raw.length < rawCap := by
              cases first
              · have := (hfirst rfl).1; unfold rawCap; omega
              · have : st.raw = [] := by simpa using hc
                rw [this]; decide
            rcases updateRaw_spec o st hsmall hst with hbad | ⟨st1, u1, u2, u3, u4, u5, u6, u7, u8, u0, u9⟩
            · exact Or.inl hbad
            refine Or.inr ⟨st1, u1, u2, by omega, u4, u5, by omega, u7, u8, ?_, ?_⟩
            · intro h
              rcases u9 with ⟨_, h2, _⟩ | ⟨h1, _⟩
              · exact h2
              · rw [h] at h1; cases h1
            · intro h
              rcases u9 with ⟨h1, _⟩ | ⟨_, h2, _⟩
              · rw [h] at h1; cases h1
              · refine ⟨rfl, ?_⟩
                split <;> omega
        · rw [if_neg hc]
          have hfst : first = true := by
            cases first
            · simp at hc
            · rfl
          refine Or.inr ⟨st, rfl, rfl, hraw, rfl, rfl, hb0, rfl, rfl, heof, fun h => ⟨h, by simp [hfst]⟩⟩
      rcases hraw' with ⟨er, e1, e2⟩ | ⟨st1, e1, e2, e3, e4, e5, e6, e7, e8, e9, e10⟩
      · rw [e1]
        right; right
        exact ⟨er, rfl, Or.inl e2⟩
      rw [e1]
      have hbuf : st.buf.length ≤ 4 * st.unread := by
        rw [hrep.buf, hrep.unread]; exact utf8s_length_le cur
      have hrep1 : Rep st1 cur := ⟨by rw [e4]; exact hrep.buf, by rw [e5]; exact hrep.unread, hrep.scalar⟩
      have hs1 : Split e (st1.raw ++ st1.src.rest) good tail := by rw [e2]; exact hs
      have hcap1 : 2 * (st1.bufOff + st1.buf.length) + 3 * st1.raw.length ≤ 2 * bufCap := by
        rw [e6, e4]; unfold bufCap; unfold rawCap at *; omega
      rcases decodeLoop_spec e (st1.raw.length + 1) st1 cur good st1.src.rest tail (by omega) hrep1 hs1 e9 hcap1
        with ⟨st2, new, good', d1, d2, d3, d4, d5, d6, d7, d8, d9, d10, d11, d12, d13⟩ | ⟨ht, d1⟩
      · simp only [d1]
        cases he : st1.eof with
        | true =>
          rw [d6, he]
          simp only [if_true]
          have hre := d13 he
          have hrest := e9 he
          left
          have hcap2 : st2.bufOff + st2.buf.length + 1 ≤ bufCap := by
            rw [e6, e4] at d9
            rw [d8, e6] at d9 ⊢
            unfold bufCap rawCap at *
            omega
          unfold RS.store
          rw [if_pos (by simpa using hcap2)]
          have hnil := d4.eq
          rw [hre, hrest] at hnil
          simp only [List.nil_append] at hnil
          have hnil' := (List.append_eq_nil_iff.mp hnil.symm)
          have hg' : good' = [] := by
            cases good' with
            | nil => rfl
            | cons c t =>
              have := hnil'.1
              rw [encodes_cons] at this
              have hp := encode_length_pos e c
              rw [(List.append_eq_nil_iff.mp this).1] at hp
              simp at hp
          refine ⟨_, rfl, ?_, ?_, ?_, hnil'.2, ?_, ?_, ?_, ?_, by simp only; rw [d11]; exact e3⟩
          · simp only; rw [d6, he]
          · simp only; exact hre
          · simp only; rw [d5, hrest]
          · refine ⟨?_, ?_, ?_⟩
            · simp only; rw [d3.buf, d2, hg', utf8s_append]; simp [utf8s, utf8]
            · simp only; rw [d3.unread, d2, hg']; simp; omega
            · intro x hx
              rcases List.mem_append.mp hx with hx | hx
              · apply d3.scalar x; rw [d2, hg'] at hx; simpa using hx
              · rw [List.mem_singleton.mp hx]; exact isScalar_zero
          · simp only [List.length_append, List.length_cons, List.length_nil]; omega
          · simp only; rw [d7, e7]
          · simp only
            rw [hre] at d10
            have := congrArg List.length e2
            simp only [List.length_append, List.length_nil, hrest] at this d10
            omega
        | false =>
          rw [d6, he]
          simp only [Bool.false_eq_true, if_false]
          obtain ⟨hsteof, hdec⟩ := e10 he
          rcases ih false st2 (cur ++ new) good'
            (by rw [d5]; simp only [Bool.false_eq_true, if_false]; split at hf <;> split at hdec <;> simp_all <;> omega)
            d3 (by rw [d5]; exact d4) (by rw [d8, e6]) (by rw [d11]; exact e3)
            (by rw [d6, he]; intro h; cases h) (fun _ => ⟨d12, by rw [d6, he]⟩)
            (by rw [d8, e6, e4] at d9; rw [hb0] at *; unfold bufCap rawCap at *; omega)
            with ⟨st', g1, g2, g3, g4, g5, g6, g7, g8, g9, g0⟩ | ⟨st', new', good'', g1, g2, g3, g4, g5, g6, g7, g8, g9, g10, g11⟩ | g
          · left
            refine ⟨st', g1, g2, g3, g4, g5, ?_, g7, by rw [g8, d7, e7], ?_, g0⟩
            · rw [d2]; simpa using g6
            · rw [g9, d5, d10, e8]
              have := congrArg List.length e2
              simp only [List.length_append] at this
              omega
          · right; left
            refine ⟨st', new ++ new', good'', g1, by rw [d2, g2]; simp, by simpa using g3, g4, Or.inr (Or.inl hsteof),
              ?_, g7, by simpa using g8, g9, by rw [g10, d7, e7], ?_⟩
            · rw [g6, d6, he, hsteof]
            · rw [g11, d5, d10, e8]
              have := congrArg List.length e2
              simp only [List.length_append] at this
              omega
          · right; right
            obtain ⟨er, g1, g2⟩ := g
            refine ⟨er, g1, ?_⟩
            rcases g2 with g2 | ⟨g2, g3⟩
            · exact Or.inl g2
            · refine Or.inr ⟨g2, ?_⟩
              rw [g3]
              have h1 := congrArg List.length hs1.eq
              have h2 := congrArg List.length d4.eq
              simp only [List.length_append] at h1 h2
              have : st2.offset + (encodes e good').length = st.offset + (encodes e good).length := by omega
              rw [this]
      · right; right
        simp only [d1]
        exact ⟨_, rfl, Or.inr ⟨ht, by rw [e8]⟩⟩
    · rw [if_neg hlt]
      right; left
      refine ⟨st, [], good, rfl, rfl, by simpa using hrep, hs, Or.inr (Or.inr ?_), rfl, hraw, ?_, by omega, rfl, rfl⟩
      · rw [← hrep.unread]; omega
      · simp only [List.append_nil]; rw [← hrep.unread]; omega

end LibYaml
