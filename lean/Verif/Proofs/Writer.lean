import Verif.Proofs.Prog
import Verif.Model.Writer
import Verif.Proofs.Containers

/-! Facts about the writer and the UTF-8 check. -/

namespace LibYaml

open Spec

/-- Everything the four-byte pattern can encode. -/
theorem utf8_parts (c : Nat) (hc : c < 0x200000) :
    ∃ b t, utf8 c = b :: t ∧ width b.toNat = t.length + 1 ∧ (∀ off, trailing off (leadBits b.toNat) 1 t = .ok c) ∧
      ((width b.toNat = 1 ∧ c < 0x80) ∨ (width b.toNat = 2 ∧ 0x80 ≤ c ∧ c < 0x800) ∨
       (width b.toNat = 3 ∧ 0x800 ≤ c ∧ c < 0x10000) ∨ (width b.toNat = 4 ∧ 0x10000 ≤ c)) := by
  unfold utf8
  split
  · rename_i h
    refine ⟨_, _, rfl, ?_⟩
    rw [toNat_ofNat_lt _ (by omega), width_eq _ (by omega), leadBits_eq _ (by omega)]
    simp only [h, if_true]
    exact ⟨rfl, fun _ => rfl, by simp⟩
  split
  · rename_i h1 h
    refine ⟨_, _, rfl, ?_⟩
    have i1 : ¬ (0xC0 + c / 64 < 128) := by omega
    have i2 : ¬ (0xC0 + c / 64 < 192) := by omega
    have i3 : (0xC0 + c / 64 < 224) := by omega
    have t1 : 128 ≤ 0x80 + c % 64 ∧ 0x80 + c % 64 < 192 := by omega
    have hv : (0xC0 + c / 64 - 192) * 2 ^ 6 + (0x80 + c % 64) % 64 = c := by omega
    rw [toNat_ofNat_lt _ (by omega), width_eq _ (by omega), leadBits_eq _ (by omega)]
    simp only [trailing, toNat_ofNat_lt (0x80 + c % 64) (by omega), i1, i2, i3, if_true, if_false,
      trail_iff (0x80 + c % 64) (by omega), and3F, Nat.shiftLeft_eq, hv, t1, ne_eq]
    refine ⟨rfl, fun _ => by simp, by simp; omega⟩
  split
  · rename_i h2 h1 h
    refine ⟨_, _, rfl, ?_⟩
    have i1 : ¬ (0xE0 + c / 4096 < 128) := by omega
    have i2 : ¬ (0xE0 + c / 4096 < 192) := by omega
    have i3 : ¬ (0xE0 + c / 4096 < 224) := by omega
    have i4 : (0xE0 + c / 4096 < 240) := by omega
    have hv : ((0xE0 + c / 4096 - 224) * 2 ^ 6 + (0x80 + c / 64 % 64) % 64) * 2 ^ 6 + (0x80 + c % 64) % 64 = c := by
      omega
    have t1 : 128 ≤ 0x80 + c / 64 % 64 ∧ 0x80 + c / 64 % 64 < 192 := by omega
    have t2 : 128 ≤ 0x80 + c % 64 ∧ 0x80 + c % 64 < 192 := by omega
    rw [toNat_ofNat_lt _ (by omega), width_eq _ (by omega), leadBits_eq _ (by omega)]
    simp only [trailing, toNat_ofNat_lt (0x80 + c / 64 % 64) (by omega), toNat_ofNat_lt (0x80 + c % 64) (by omega),
      i1, i2, i3, i4, if_true, if_false,
      trail_iff (0x80 + c / 64 % 64) (by omega), trail_iff (0x80 + c % 64) (by omega), and3F,
      Nat.shiftLeft_eq, hv, t1, t2, ne_eq]
    refine ⟨rfl, fun _ => by simp, by simp; omega⟩
  · rename_i h2 h1 h
    refine ⟨_, _, rfl, ?_⟩
    have i1 : ¬ (0xF0 + c / 262144 < 128) := by omega
    have i2 : ¬ (0xF0 + c / 262144 < 192) := by omega
    have i3 : ¬ (0xF0 + c / 262144 < 224) := by omega
    have i4 : ¬ (0xF0 + c / 262144 < 240) := by omega
    have i5 : (0xF0 + c / 262144 < 248) := by omega
    have hv : (((0xF0 + c / 262144 - 240) * 2 ^ 6 + (0x80 + c / 4096 % 64) % 64) * 2 ^ 6
        + (0x80 + c / 64 % 64) % 64) * 2 ^ 6 + (0x80 + c % 64) % 64 = c := by
      omega
    have t1 : 128 ≤ 0x80 + c / 4096 % 64 ∧ 0x80 + c / 4096 % 64 < 192 := by omega
    have t2 : 128 ≤ 0x80 + c / 64 % 64 ∧ 0x80 + c / 64 % 64 < 192 := by omega
    have t3 : 128 ≤ 0x80 + c % 64 ∧ 0x80 + c % 64 < 192 := by omega
    rw [toNat_ofNat_lt _ (by omega), width_eq _ (by omega), leadBits_eq _ (by omega)]
    simp only [trailing, toNat_ofNat_lt (0x80 + c / 4096 % 64) (by omega), toNat_ofNat_lt (0x80 + c / 64 % 64) (by omega),
      toNat_ofNat_lt (0x80 + c % 64) (by omega),
      i1, i2, i3, i4, i5, if_true, if_false, trail_iff (0x80 + c / 4096 % 64) (by omega),
      trail_iff (0x80 + c / 64 % 64) (by omega), trail_iff (0x80 + c % 64) (by omega), and3F,
      Nat.shiftLeft_eq, hv, t1, t2, t3, ne_eq]
    refine ⟨rfl, fun _ => by simp, by simp; omega⟩

theorem trailing_fold {off k v r : Nat} {l : List UInt8} (h : trailing off v k l = .ok r) : foldTrail v l = r := by
  induction l generalizing v k with
  | nil => simpa [trailing, foldTrail] using h
  | cons b l ih =>
    simp only [trailing] at h
    split at h
    · cases h
    · exact ih h

/-! ### `checkUtf8` -/

theorem checkStep_utf8 (c : Nat) (rest : List UInt8) (hc : c < 0x200000) : checkStep (utf8 c ++ rest) = some rest := by
  obtain ⟨b, t, h1, h2, h3, h4⟩ := utf8_parts c hc
  rw [h1]
  simp only [List.cons_append, checkStep]
  rw [if_neg (by omega), if_neg (by rw [h2]; simp), h2]
  have ht : List.take (t.length + 1 - 1) (t ++ rest) = t := by simp
  rw [ht, h3]
  simp only [List.drop_succ_cons, List.drop_left]
  rw [if_neg]
  rw [h2] at h4
  rcases h4 with h4 | h4 | h4 | h4 <;> simp [h4]

theorem checkStep_some {raw r : List UInt8} (h : checkStep raw = some r) : ∃ c < 0x200000, raw = utf8 c ++ r := by
  match raw, h with
  | b :: rest, h =>
    simp only [checkStep] at h
    split at h
    · cases h
    split at h
    · cases h
    rename_i hw0 hwl
    split at h
    · cases h
    rename_i value hval
    split at h
    · cases h
    rename_i hlen
    injection h with hv
    subst hv
    have hb := toNat_lt b
    rw [width_eq _ hb] at hw0 hwl hval hlen ⊢
    rw [leadBits_eq _ hb] at hval
    by_cases c1 : b.toNat < 128
    · simp only [c1, if_true] at hval hlen hwl ⊢
      simp [trailing] at hval
      have : utf8 value = [b] := by
        unfold utf8; rw [if_pos (by omega), ofNat_toNat b _ (by omega)]
      exact ⟨value, by omega, by simp [this]⟩
    by_cases c2 : b.toNat < 192
    · simp [c1, c2] at hw0
    by_cases c3 : b.toNat < 224
    · simp only [c1, c2, c3, if_true, if_false] at hval hlen hwl ⊢
      match rest with
      | [] => simp at hwl
      | b1 :: rest =>
        have hb1 := toNat_lt b1
        simp only [trailing, List.take, Nat.reduceSub, ne_eq, trail_iff _ hb1, and3F, Nat.shiftLeft_eq] at hval
        split at hval
        · cases hval
        injection hval with hval
        simp at hlen
        have : utf8 value = [b, b1] := by
          unfold utf8
          rw [if_neg (by omega), if_pos (by omega), ofNat_toNat b _ (by omega), ofNat_toNat b1 _ (by omega)]
        exact ⟨value, by omega, by simp [this]⟩
    by_cases c4 : b.toNat < 240
    · simp only [c1, c2, c3, c4, if_true, if_false] at hval hlen hwl ⊢
      match rest with
      | [] => simp at hwl
      | [_] => simp at hwl
      | b1 :: b2 :: rest =>
        have hb1 := toNat_lt b1
        have hb2 := toNat_lt b2
        simp only [trailing, List.take, Nat.reduceSub, ne_eq, trail_iff _ hb1, trail_iff _ hb2, and3F,
          Nat.shiftLeft_eq] at hval
        split at hval
        · cases hval
        split at hval
        · cases hval
        injection hval with hval
        simp at hlen
        have : utf8 value = [b, b1, b2] := by
          unfold utf8
          rw [if_neg (by omega), if_neg (by omega), if_pos (by omega), ofNat_toNat b _ (by omega),
            ofNat_toNat b1 _ (by omega), ofNat_toNat b2 _ (by omega)]
        exact ⟨value, by omega, by simp [this]⟩
    by_cases c5 : b.toNat < 248
    · simp only [c1, c2, c3, c4, c5, if_true, if_false] at hval hlen hwl ⊢
      match rest with
      | [] => simp at hwl
      | [_] => simp at hwl
      | [_, _] => simp at hwl
      | b1 :: b2 :: b3 :: rest =>
        have hb1 := toNat_lt b1
        have hb2 := toNat_lt b2
        have hb3 := toNat_lt b3
        simp only [trailing, List.take, Nat.reduceSub, ne_eq, trail_iff _ hb1, trail_iff _ hb2, trail_iff _ hb3,
          and3F, Nat.shiftLeft_eq] at hval
        split at hval
        · cases hval
        split at hval
        · cases hval
        split at hval
        · cases hval
        injection hval with hval
        simp at hlen
        have : utf8 value = [b, b1, b2, b3] := by
          unfold utf8
          rw [if_neg (by omega), if_neg (by omega), if_neg (by omega), ofNat_toNat b _ (by omega),
            ofNat_toNat b1 _ (by omega), ofNat_toNat b2 _ (by omega), ofNat_toNat b3 _ (by omega)]
        exact ⟨value, by omega, by simp [this]⟩
    · simp [c1, c2, c3, c4, c5] at hw0

theorem checkLoop_iff (fuel : Nat) (bytes : List UInt8) (hf : bytes.length ≤ fuel) :
    checkLoop fuel bytes = true ↔ ∃ cs, bytes = utf8s cs ∧ ∀ c ∈ cs, c < 0x200000 := by
  induction fuel generalizing bytes with
  | zero =>
    have : bytes = [] := by simpa using hf
    subst this
    exact ⟨fun _ => ⟨[], rfl, by simp⟩, fun _ => rfl⟩
  | succ fuel ih =>
    match bytes with
    | [] => exact ⟨fun _ => ⟨[], rfl, by simp⟩, fun _ => rfl⟩
    | b :: rest =>
      simp only [checkLoop]
      constructor
      · intro h
        split at h
        · cases h
        · rename_i r hr
          obtain ⟨c, hc, he⟩ := checkStep_some hr
          have hl := congrArg List.length he
          have := utf8_length_pos c
          rw [List.length_append] at hl
          obtain ⟨cs, h1, h2⟩ := (ih r (by simp only [List.length_cons] at *; omega)).mp h
          refine ⟨c :: cs, by rw [utf8s_cons, he, h1], ?_⟩
          intro x hx
          rcases List.mem_cons.mp hx with rfl | hx
          · exact hc
          · exact h2 x hx
      · rintro ⟨cs, h1, h2⟩
        cases cs with
        | nil => simp [utf8s] at h1
        | cons c cs =>
          rw [utf8s_cons] at h1
          rw [h1, checkStep_utf8 c _ (h2 c (by simp))]
          simp only
          have hl := congrArg List.length h1
          have := utf8_length_pos c
          rw [List.length_append] at hl
          exact (ih _ (by simp only [List.length_cons] at *; omega)).mpr ⟨cs, rfl, fun x hx => h2 x (by simp [hx])⟩

/-! ### Recoding -/

/-- UTF-16 bytes written for a text. -/
def recoded (le : Bool) (cs : List Nat) : List UInt8 := cs.flatMap (recodeChar le)

theorem recodeChar_length (le : Bool) (c : Nat) : (recodeChar le c).length = if c < 0x10000 then 2 else 4 := by
  unfold recodeChar twoBytes
  split
  · split <;> simp
  · split <;> simp

theorem recoded_length_le (le : Bool) (cs : List Nat) : (recoded le cs).length ≤ 2 * (utf8s cs).length := by
  induction cs with
  | nil => simp [recoded, utf8s]
  | cons c cs ih =>
    have h1 : (recoded le (c :: cs)).length = (recodeChar le c).length + (recoded le cs).length := by simp [recoded]
    have h2 : (utf8s (c :: cs)).length = (utf8 c).length + (utf8s cs).length := by simp [utf8s]
    rw [h1, h2, recodeChar_length]
    have : (if c < 0x10000 then 2 else 4) ≤ 2 * (utf8 c).length := by
      unfold utf8
      split <;> split <;> (try split) <;> (try split) <;> simp <;> omega
    omega

theorem recode_spec (le : Bool) (fuel : Nat) (cs : List Nat) (raw : List UInt8) (hc : ∀ c ∈ cs, c < 0x200000)
    (hf : (utf8s cs).length ≤ fuel) (hcap : raw.length + (recoded le cs).length ≤ outRawCap) :
    recode le fuel (utf8s cs) raw = .ok (raw ++ recoded le cs) := by
  induction cs generalizing fuel raw with
  | nil => cases fuel <;> simp [utf8s, recode, recoded]
  | cons c cs ih =>
    have h1 : recoded le (c :: cs) = recodeChar le c ++ recoded le cs := by simp [recoded]
    rw [utf8s_cons]
    obtain ⟨b, t, p1, p2, p3, p4⟩ := utf8_parts c (hc c (by simp))
    rw [utf8s_cons, p1] at hf
    rw [h1, List.length_append] at hcap
    rw [p1]
    cases fuel with
    | zero => simp at hf
    | succ fuel =>
      simp only [List.cons_append, recode]
      have ht : List.take (width b.toNat - 1) (t ++ utf8s cs) = t := by rw [p2]; simp
      have hd : List.drop (width b.toNat - 1) (t ++ utf8s cs) = utf8s cs := by rw [p2]; simp
      rw [if_neg (by rw [p2]; simp), ht, hd, trailing_fold (p3 0), if_pos (by omega)]
      rw [ih fuel _ (fun x hx => hc x (by simp [hx])) (by simp at hf; omega) (by rw [List.length_append]; omega), h1]
      simp

/-! ### Histories -/

/-- The bytes the handler is to receive for a text. -/
def outBytes (e : Enc) (cs : List Nat) : List UInt8 :=
  match e with
  | .utf8 => utf8s cs
  | .utf16le => recoded true cs
  | .utf16be => recoded false cs

theorem outBytes_append (e : Enc) (a b : List Nat) : outBytes e (a ++ b) = outBytes e a ++ outBytes e b := by
  cases e <;> simp [outBytes, utf8s, recoded]

/-- Writer state in which `cs` is buffered and no write has failed. -/
structure WInv {σ : Type} (st : WS σ) (cs : List Nat) : Prop where
  buf : st.buf = utf8s cs
  ok : ∀ c ∈ cs, c < 0x200000
  cap : st.buf.length ≤ outCap
  raw : st.raw = []

/-- The operations the emitter performs: at most 6 bytes at a time, of characters with at most 21 bits. -/
def WOp.Valid : WOp → Prop
  | .chars cs => (∀ c ∈ cs, c < 0x200000) ∧ (utf8s cs).length ≤ 6
  | .flush => True

theorem flush_spec {σ : Type} (h : Handler σ) (st : WS σ) (cs : List Nat) (hi : WInv st cs) :
    (cs = [] ∧ flush h st = .ok (true, st)) ∨
    (cs ≠ [] ∧ ((∃ e, h st.sink (outBytes st.enc cs) = .error e ∧ flush h st = .error e) ∨
      (∃ s', h st.sink (outBytes st.enc cs) = .ok (true, s') ∧
        flush h st = .ok (true, { st with buf := [], raw := [], sink := s', trace := st.trace ++ [outBytes st.enc cs] })) ∨
      (∃ s' st', h st.sink (outBytes st.enc cs) = .ok (false, s') ∧ flush h st = .ok (false, st') ∧
        st'.trace = st.trace ++ [outBytes st.enc cs] ∧ st'.sink = s' ∧ st'.enc = st.enc))) := by
  by_cases hcs : cs = []
  · left
    subst hcs
    refine ⟨rfl, ?_⟩
    unfold flush
    rw [if_pos (by rw [hi.buf]; rfl)]
  · right
    refine ⟨hcs, ?_⟩
    unfold flush
    have hne : ¬ st.buf.isEmpty = true := by
      rw [hi.buf]
      cases cs with
      | nil => exact absurd rfl hcs
      | cons c cs =>
        have := utf8_length_pos c
        rw [utf8s_cons]
        intro hh
        rw [List.isEmpty_iff] at hh
        rw [(List.append_eq_nil_iff.mp hh).1] at this
        simp at this
    rw [if_neg hne]
    have hrec : ∀ le, recode le st.buf.length st.buf st.raw = .ok (recoded le cs) := by
      intro le
      have hl := recoded_length_le le cs
      have hcap := hi.cap
      rw [hi.raw, hi.buf] at *
      have := recode_spec le (utf8s cs).length cs [] hi.ok (by omega) (by unfold outRawCap; simp; omega)
      simpa using this
    cases he : st.enc with
    | utf8 =>
      have ho : outBytes .utf8 cs = st.buf := by simp [outBytes, hi.buf]
      simp only [ho]
      cases hh : h st.sink st.buf with
      | error e => left; exact ⟨e, rfl, rfl⟩
      | ok p =>
        obtain ⟨r, s'⟩ := p
        right
        cases r
        · right; exact ⟨s', _, rfl, rfl, rfl, rfl, rfl⟩
        · left; refine ⟨s', rfl, ?_⟩; simp [hi.raw]
    | utf16le =>
      have ho : outBytes .utf16le cs = recoded true cs := rfl
      simp only [ho, beq_self_eq_true, hrec]
      cases hh : h st.sink (recoded true cs) with
      | error e => left; exact ⟨e, rfl, rfl⟩
      | ok p =>
        obtain ⟨r, s'⟩ := p
        right
        cases r
        · right; exact ⟨s', _, rfl, rfl, rfl, rfl, rfl⟩
        · left; exact ⟨s', rfl, by simp⟩
    | utf16be =>
      have ho : outBytes .utf16be cs = recoded false cs := rfl
      have hb : (Enc.utf16be == Enc.utf16le) = false := rfl
      simp only [ho, hb, hrec]
      cases hh : h st.sink (recoded false cs) with
      | error e => left; exact ⟨e, rfl, rfl⟩
      | ok p =>
        obtain ⟨r, s'⟩ := p
        right
        cases r
        · right; exact ⟨s', _, rfl, rfl, rfl, rfl, rfl⟩
        · left; exact ⟨s', rfl, by simp⟩

/-- The handler is safe on all data satisfying `I`. -/
def Safe {σ : Type} (h : Handler σ) (I : σ → Prop) : Prop := ∀ s b, I s → ∃ r s', h s b = .ok (r, s') ∧ I s'

/-- Pass buffers to a handler until it fails. -/
def feed {σ : Type} (h : Handler σ) : σ → List (List UInt8) → Except Fail (Bool × σ)
  | s, [] => .ok (true, s)
  | s, b :: bs =>
    match h s b with
    | .error e => .error e
    | .ok (false, s) => .ok (false, s)
    | .ok (true, s) => feed h s bs

theorem feed_append {σ : Type} {h : Handler σ} {s s' : σ} {a b : List (List UInt8)} (h1 : feed h s a = .ok (true, s')) :
    feed h s (a ++ b) = feed h s' b := by
  induction a generalizing s with
  | nil => simp only [feed] at h1; cases h1; rfl
  | cons x a ih =>
    simp only [feed, List.cons_append] at h1 ⊢
    cases hx : h s x with
    | error e => rw [hx] at h1; cases h1
    | ok p =>
      obtain ⟨r, t⟩ := p
      rw [hx] at h1
      cases r
      · cases h1
      · exact ih h1

theorem outBytes_nil (e : Enc) : outBytes e [] = [] := by cases e <;> rfl

/-- One operation: it keeps the invariant and sends a prefix of what was emitted. -/
theorem op_spec {σ : Type} (h : Handler σ) (I : σ → Prop) (hub : Safe h I) (op : WOp) (hv : op.Valid) (st : WS σ)
    (cs : List Nat) (hi : WInv st cs) (hI : I st.sink) :
    ∃ r st' new sent left, op.run h st = .ok (r, st') ∧ I st'.sink ∧ st'.enc = st.enc ∧
        st'.trace = st.trace ++ new ∧ feed h st.sink new = .ok (r, st'.sink) ∧
        new.flatten = outBytes st.enc sent ∧ cs ++ op.text = sent ++ left ∧
        (r = true → WInv st' left ∧ (op = .flush → left = [])) := by
  cases op with
  | flush =>
    simp only [WOp.run, WOp.text, List.append_nil]
    obtain ⟨r0, s0, hs0, hI0⟩ := hub st.sink (outBytes st.enc cs) hI
    rcases flush_spec h st cs hi with ⟨rfl, h2⟩ | ⟨hcs, ⟨e, h2, _⟩ | ⟨s', h2, h3⟩ | ⟨s', st', h2, h3, h4, h5, h6⟩⟩
    · exact ⟨true, st, [], [], [], h2, hI, rfl, by simp, rfl, by simp [outBytes_nil], rfl, fun _ => ⟨hi, fun _ => rfl⟩⟩
    · rw [h2] at hs0; cases hs0
    · rw [h2] at hs0; cases hs0
      exact ⟨true, _, [outBytes st.enc cs], cs, [], h3, hI0, rfl, rfl, by simp [feed, h2], by simp, by simp,
        fun _ => ⟨⟨by simp [utf8s], by simp, by simp, rfl⟩, fun _ => rfl⟩⟩
    · rw [h2] at hs0; cases hs0
      exact ⟨false, st', [outBytes st.enc cs], cs, [], h3, by rw [h5]; exact hI0, h6, h4, by simp [feed, h2, h5],
        by simp, by simp, by simp⟩
  | chars new =>
    simp only [WOp.run, WOp.text, emitBytes]
    obtain ⟨hv1, hv2⟩ := hv
    have hmem : ∀ c ∈ cs ++ new, c < 0x200000 := by
      intro c hc
      rcases List.mem_append.mp hc with hc | hc
      · exact hi.ok c hc
      · exact hv1 c hc
    by_cases hroom : st.buf.length + 5 < outCap
    · rw [if_pos hroom]
      unfold WS.store
      rw [if_pos (by omega)]
      refine ⟨true, _, [], [], cs ++ new, rfl, hI, rfl, by simp, rfl, by simp [outBytes_nil], by simp,
        fun _ => ⟨⟨?_, hmem, ?_, hi.raw⟩, by intro h; cases h⟩⟩
      · simp only; rw [hi.buf]; simp [utf8s]
      · simp only [List.length_append]; omega
    · rw [if_neg hroom]
      obtain ⟨r0, s0, hs0, hI0⟩ := hub st.sink (outBytes st.enc cs) hI
      rcases flush_spec h st cs hi with ⟨rfl, h2⟩ | ⟨hcs, ⟨e, h2, _⟩ | ⟨s', h2, h3⟩ | ⟨s', st', h2, h3, h4, h5, h6⟩⟩
      · exfalso
        rw [hi.buf] at hroom
        apply hroom; decide
      · rw [h2] at hs0; cases hs0
      · rw [h2] at hs0; cases hs0
        rw [h3]
        simp only [WS.store, List.length_nil, List.nil_append]
        rw [if_pos (by unfold outCap; omega)]
        exact ⟨true, _, [outBytes st.enc cs], cs, new, rfl, hI0, rfl, rfl, by simp [feed, h2], by simp, rfl,
          fun _ => ⟨⟨rfl, hv1, by simp only; unfold outCap; omega, rfl⟩, by intro h; cases h⟩⟩
      · rw [h2] at hs0; cases hs0
        rw [h3]
        exact ⟨false, st', [outBytes st.enc cs], cs, new, rfl, by rw [h5]; exact hI0, h6, h4, by simp [feed, h2, h5],
          by simp, rfl, by simp⟩

/-- A whole history up to the first failure. -/
theorem runOps_spec {σ : Type} (h : Handler σ) (I : σ → Prop) (hub : Safe h I) (ops : List WOp)
    (hv : ∀ op ∈ ops, op.Valid) (st : WS σ) (cs : List Nat) (hi : WInv st cs) (hI : I st.sink) :
    ∃ r st' new sent left, runOps h ops st = .ok (r, st') ∧ I st'.sink ∧ st'.enc = st.enc ∧
        st'.trace = st.trace ++ new ∧ feed h st.sink new = .ok (r, st'.sink) ∧
        new.flatten = outBytes st.enc sent ∧ cs ++ ops.flatMap WOp.text = sent ++ left ∧
        (r = true → WInv st' left ∧ (ops.getLast? = some .flush → left = [])) := by
  induction ops generalizing st cs with
  | nil =>
    exact ⟨true, st, [], [], cs, rfl, hI, rfl, by simp, rfl, by simp [outBytes_nil], by simp, fun _ => ⟨hi, by simp⟩⟩
  | cons op ops ih =>
    simp only [runOps, List.flatMap_cons]
    obtain ⟨r1, st1, new, sent, left, h1, h2, h3, h4, h5, h6, h7, h8⟩ := op_spec h I hub op (hv op (by simp)) st cs hi hI
    rw [h1]
    cases r1 with
    | true =>
      simp only
      obtain ⟨hw, hfl⟩ := h8 rfl
      obtain ⟨r, st', new', sent', left', g1, g2, g3, g4, g5, g6, g7, g8⟩ :=
        ih (fun o ho => hv o (by simp [ho])) st1 left hw h2
      refine ⟨r, st', new ++ new', sent ++ sent', left', g1, g2, by rw [g3, h3], by rw [g4, h4]; simp, ?_, ?_, ?_, ?_⟩
      · rw [feed_append h5, g5]
      · rw [List.flatten_append, h6, g6, outBytes_append, h3]
      · rw [← List.append_assoc, h7, List.append_assoc, g7, List.append_assoc]
      · intro hr
        refine ⟨(g8 hr).1, ?_⟩
        intro hl
        cases ops with
        | nil =>
          simp only [runOps] at g1
          cases g1
          simp at hl
          have hln := hfl hl
          subst hln
          simp at g7
          exact g7.2
        | cons o ops => exact (g8 hr).2 (by simpa using hl)
    | false =>
      exact ⟨false, st1, new, sent, left ++ ops.flatMap WOp.text, rfl, h2, h3, h4, h5, h6,
        by rw [← List.append_assoc, h7, List.append_assoc], by simp⟩

theorem winv_init {σ : Type} (e : Enc) (s : σ) : WInv (WS.init e s) [] :=
  ⟨rfl, by simp, by simp [WS.init], rfl⟩

/-! ### The string handler -/

theorem stringHandler_safe : Safe stringHandler (fun s => s.written ≤ s.mem.length) := by
  intro s b hs
  unfold stringHandler
  rw [if_neg (by omega)]
  split
  · obtain ⟨mem', m1, m2, _⟩ := memcpy_spec s.mem (b.take (s.mem.length - s.written)) s.written
      (by rw [List.length_take]; omega)
    rw [m1]
    exact ⟨_, _, rfl, by simp only; omega⟩
  · obtain ⟨mem', m1, m2, _⟩ := memcpy_spec s.mem b s.written (by omega)
    rw [m1]
    exact ⟨_, _, rfl, by simp only; omega⟩

/-- Feeding the string handler: what is stored, and when it fails. -/
theorem feed_string (bufs : List (List UInt8)) (s : StrOut) (hs : s.written ≤ s.mem.length) :
    ∃ s', feed stringHandler s bufs =
        .ok (decide (s.written + bufs.flatten.length ≤ s.mem.length), s') ∧
      s'.mem.length = s.mem.length ∧ s'.written = min s.mem.length (s.written + bufs.flatten.length) ∧
      s'.mem.take s'.written = s.mem.take s.written ++ bufs.flatten.take (s'.written - s.written) ∧
      s'.mem.drop s'.written = s.mem.drop s'.written := by
  induction bufs generalizing s with
  | nil =>
    refine ⟨s, by simp [feed, hs], rfl, by simp; omega, by simp, rfl⟩
  | cons b bufs ih =>
    simp only [feed, stringHandler]
    rw [if_neg (by omega)]
    by_cases hlt : s.mem.length - s.written < b.length
    · rw [if_pos hlt]
      obtain ⟨mem', m1, m2, m3, m4⟩ := memcpy_spec s.mem (b.take (s.mem.length - s.written)) s.written
        (by rw [List.length_take]; omega)
      rw [m1]
      have hl : (b.take (s.mem.length - s.written)).length = s.mem.length - s.written := by
        rw [List.length_take]; omega
      rw [hl] at m3 m4
      have hw : s.written + (s.mem.length - s.written) = s.mem.length := by omega
      rw [hw] at m3 m4
      refine ⟨{ mem := mem', written := s.mem.length }, ?_, m2, ?_, ?_, ?_⟩
      · simp only
        congr 2
        simp only [List.flatten_cons, List.length_append]
        exact (decide_eq_false (by omega)).symm
      · simp only [List.flatten_cons, List.length_append]; omega
      · simp only
        rw [m3, List.flatten_cons, List.take_append_of_le_length (by omega)]
      · simp only
        exact m4
    · rw [if_neg hlt]
      obtain ⟨mem', m1, m2, m3, m4⟩ := memcpy_spec s.mem b s.written (by omega)
      rw [m1]
      simp only
      obtain ⟨s', f1, f2, f3, f4, f5⟩ := ih { mem := mem', written := s.written + b.length } (by simp only; omega)
      simp only at f1 f2 f3 f4 f5
      refine ⟨s', ?_, by omega, ?_, ?_, ?_⟩
      · rw [f1, m2]
        congr 2
        simp only [List.flatten_cons, List.length_append]
        rw [Nat.add_assoc]
      · rw [f3, m2, List.flatten_cons, List.length_append]; omega
      · rw [f4, m3, List.flatten_cons, List.append_assoc]
        congr 1
        have hle : s.written + b.length ≤ s'.written := by rw [f3]; omega
        rw [List.take_append, List.take_of_length_le (l := b) (by omega)]
        congr 2
        omega
      · have : s.written + b.length ≤ s'.written := by omega
        have e1 : mem'.drop s'.written = (mem'.drop (s.written + b.length)).drop (s'.written - (s.written + b.length)) := by
          rw [List.drop_drop]; congr 1; omega
        have e2 : s.mem.drop s'.written = (s.mem.drop (s.written + b.length)).drop (s'.written - (s.written + b.length)) := by
          rw [List.drop_drop]; congr 1; omega
        rw [f5, e1, e2, m4]

end LibYaml
