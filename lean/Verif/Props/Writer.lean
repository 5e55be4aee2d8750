import Verif.Proofs.Writer

/-!
# C08-C11, C15: the output side

`runOps h ops st` performs output operations up to the first failure. `WOp.Valid` is what the emitter's macros guarantee:
every operation stores at most 6 bytes, of characters that fit the UTF-8 pattern. A handler is `Safe` on data
satisfying `I` if it returns (success or failure) and keeps `I`. `trace` lists the buffers passed to it.
-/

namespace LibYaml

open Spec

/-- **C08.** With UTF-8 output, for every history of operations, the concatenation of the buffers passed to the handler
is a prefix of the emitted bytes; as long as the handler succeeds, that concatenation followed by the buffered
bytes is exactly what was emitted, and after a flush nothing is left in the buffer. -/
theorem C08_utf8_output_verbatim {σ : Type} (h : Handler σ) (I : σ → Prop) (hub : Safe h I) (ops : List WOp)
    (hv : ∀ op ∈ ops, op.Valid) (s : σ) (hI : I s) :
    ∃ r st, runOps h ops (WS.init .utf8 s) = .ok (r, st) ∧
      st.trace.flatten <+: utf8s (ops.flatMap WOp.text) ∧
      (r = true → st.trace.flatten ++ st.buf = utf8s (ops.flatMap WOp.text)) ∧
      (r = true → ops.getLast? = some .flush → st.trace.flatten = utf8s (ops.flatMap WOp.text)) := by
  obtain ⟨r, st, new, sent, left, h1, h2, h3, h4, h5, h6, h7, h8⟩ :=
    runOps_spec h I hub ops hv (WS.init .utf8 s) [] (winv_init _ _) hI
  have ht : st.trace.flatten = utf8s sent := by
    rw [h4]; simpa [WS.init, outBytes] using h6
  rw [List.nil_append] at h7
  refine ⟨r, st, h1, ?_, ?_, ?_⟩
  · rw [ht, h7, utf8s_append]; exact ⟨_, rfl⟩
  · intro hr
    rw [ht, (h8 hr).1.buf, h7, utf8s_append]
  · intro hr hl
    rw [ht, h7, (h8 hr).2 hl]; simp

/-- A handler that always succeeds, as an instance of the hypotheses. -/
def okHandler : Handler Unit := fun s _ => .ok (true, s)
theorem okHandler_safe : Safe okHandler (fun _ => True) := fun s _ _ => ⟨true, s, rfl, trivial⟩

example : ∀ op ∈ [WOp.chars [0x61], .flush, .chars [0xE9], .chars [0x0D, 0x0A], .flush], op.Valid := by
  simp [WOp.Valid, utf8s, utf8]
example : ∃ st, runOps okHandler [.chars [0x61], .flush, .chars [0xE9], .flush] (WS.init .utf8 ()) = .ok (true, st) ∧
    st.trace = [[0x61], [0xC3, 0xA9]] := ⟨_, rfl, rfl⟩

/-! ### C09 -/

theorem twoBytes_unit16 (le : Bool) (u hi lo : Nat) (h1 : hi % 256 = u / 256 % 256) (h2 : lo % 256 = u % 256) :
    twoBytes le hi lo = unit16 le u := by
  have e1 : UInt8.ofNat hi = UInt8.ofNat (u / 256) := by
    apply UInt8.toNat_inj.mp; simpa using h1
  have e2 : UInt8.ofNat lo = UInt8.ofNat (u % 256) := by
    apply UInt8.toNat_inj.mp; simpa using h2
  unfold twoBytes unit16
  rw [e1, e2]

/-- Exactly these characters are written correctly: those up to U+FFFF and one in 64 of the others. -/
def GoodUtf16 (c : Nat) : Prop := c < 0x10000 ∨ (c - 0x10000) / 1024 % 64 = 0

theorem unit16_inj {le : Bool} {u v : Nat} (hu : u < 65536) (hv : v < 65536) (h : unit16 le u = unit16 le v) : u = v := by
  obtain ⟨a, b, h1, h2⟩ := unit16_split le u hu
  obtain ⟨c, d, h3, h4⟩ := unit16_split le v hv
  rw [h1, h3] at h
  simp at h
  rw [← h2, ← h4, h.1, h.2]

/-- **C09, exact characterisation.** The bytes written for a character are its UTF-16 encoding iff it is below U+10000
or bits 10-15 of (c - 0x10000) are zero. -/
theorem C09_correct_iff (le : Bool) (c : Nat) (hc : c ≤ 0x10FFFF) : recodeChar le c = utf16 le c ↔ GoodUtf16 c := by
  unfold GoodUtf16
  by_cases h : c < 0x10000
  · refine ⟨fun _ => Or.inl h, fun _ => ?_⟩
    unfold recodeChar utf16
    rw [if_pos h, if_pos h]
    apply twoBytes_unit16
    · rw [Nat.shiftRight_eq_div_pow]
    · rw [andFF]; simp
  · unfold recodeChar utf16
    rw [if_neg h, if_neg h]
    simp only [andFF, Nat.shiftRight_eq_div_pow]
    have ea : twoBytes le (0xD8 + (c - 0x10000) / 2 ^ 18) ((c - 0x10000) / 2 ^ 10 % 256) =
        unit16 le (0xD800 + (c - 0x10000) / 1024) := by
      apply twoBytes_unit16 <;> omega
    have eb : twoBytes le (0xDC + (c - 0x10000) / 2 ^ 8 % 256) ((c - 0x10000) % 256) =
        unit16 le ((0xDC + (c - 0x10000) / 2 ^ 8 % 256) % 256 * 256 + (c - 0x10000) % 256) := by
      apply twoBytes_unit16 <;> omega
    rw [ea, eb, List.append_cancel_left_eq]
    constructor
    · intro he
      have := unit16_inj (by omega) (by omega) he
      omega
    · intro hg
      have : (0xDC + (c - 0x10000) / 2 ^ 8 % 256) % 256 * 256 + (c - 0x10000) % 256 = 0xDC00 + (c - 0x10000) % 1024 := by
        omega
      rw [this]

theorem recoded_good (le : Bool) (cs : List Nat) (h : ∀ c ∈ cs, c ≤ 0x10FFFF ∧ GoodUtf16 c) :
    recoded le cs = utf16s le cs := by
  induction cs with
  | nil => simp [recoded, utf16s]
  | cons c cs ih =>
    have h1 : recoded le (c :: cs) = recodeChar le c ++ recoded le cs := List.flatMap_cons
    have h2 : utf16s le (c :: cs) = utf16 le c ++ utf16s le cs := List.flatMap_cons
    obtain ⟨hc1, hc2⟩ := h c List.mem_cons_self
    rw [h1, h2, ih (fun x hx => h x (List.mem_cons_of_mem _ hx)), (C09_correct_iff le c hc1).mpr hc2]

theorem flatMap_text_mem {ops : List WOp} {c : Nat} (h : c ∈ ops.flatMap WOp.text) :
    ∃ op ∈ ops, c ∈ op.text := List.mem_flatMap.mp h

/-- **C09, the part that holds.** If all characters are written correctly by themselves (in particular if all are below
U+10000) then, for every history ending in a flush in which the handler succeeds, the bytes it received are
the UTF-16 encoding of the emitted text, and reading them back gives the text.
Missing from the full statement: the other supplementary characters, for which it is false (`C09_violated`). -/
theorem C09_utf16_output_partial {σ : Type} (h : Handler σ) (I : σ → Prop) (hub : Safe h I) (ops : List WOp)
    (hv : ∀ op ∈ ops, op.Valid) (s : σ) (hI : I s) (le : Bool)
    (hgood : ∀ c ∈ ops.flatMap WOp.text, c ≤ 0x10FFFF ∧ GoodUtf16 c) (hflush : ops.getLast? = some .flush) :
    ∃ r st, runOps h ops (WS.init (if le then .utf16le else .utf16be) s) = .ok (r, st) ∧
      (r = true → st.trace.flatten = utf16s le (ops.flatMap WOp.text) ∧
        ((∀ c ∈ ops.flatMap WOp.text, Permitted c) → st.trace.flatten.length < maxFileSize → ∀ o, NoFail o →
          readAll o (some (if le then .utf16le else .utf16be)) st.trace.flatten = .ok (ops.flatMap WOp.text))) := by
  obtain ⟨r, st, new, sent, left, h1, h2, h3, h4, h5, h6, h7, h8⟩ :=
    runOps_spec h I hub ops hv (WS.init (if le then .utf16le else .utf16be) s) [] (winv_init _ _) hI
  refine ⟨r, st, h1, ?_⟩
  intro hr
  rw [List.nil_append, (h8 hr).2 hflush, List.append_nil] at h7
  have ht : st.trace.flatten = recoded le sent := by
    rw [h4]
    cases le <;> simpa [WS.init, outBytes] using h6
  rw [h7] at hgood ⊢
  have key : st.trace.flatten = utf16s le sent := by rw [ht, recoded_good le sent hgood]
  refine ⟨key, ?_⟩
  intro hp hsz o ho
  have hd : Decodes (if le then .utf16le else .utf16be) st.trace.flatten sent := by
    refine ⟨?_, hp⟩
    rw [key]; cases le <;> rfl
  rcases readAll_spec o (some (if le then .utf16le else .utf16be)) st.trace.flatten hsz
    (good := sent) (tail := []) ⟨by simpa [chosen] using hd.1, hp, stuck_nil _⟩ with ⟨er, _, h2⟩ | h2
  · exact absurd ho h2.1
  · simpa using h2

example : ∃ st, runOps okHandler [.chars [0x61], .chars [0x20AC], .chars [0x20041], .flush] (WS.init .utf16be ()) =
    .ok (true, st) ∧ st.trace.flatten = [0x00, 0x61, 0x20, 0xAC, 0xD8, 0x40, 0xDC, 0x41] := ⟨_, rfl, rfl⟩
example : GoodUtf16 0x20041 := by unfold GoodUtf16; omega

/-- **C09 is violated** (writer.c:119): emitting U+10400 with UTF-16LE output writes D801 E000 instead of D801 DC00, which
the library's own reader rejects. -/
theorem C09_violated : ∃ (c : Nat) (st : WS Unit), IsScalar c ∧ Permitted c ∧
    runOps okHandler [.chars [c], .flush] (WS.init .utf16le ()) = .ok (true, st) ∧
    st.trace.flatten ≠ utf16 true c ∧
    readAll (fun _ => some 1) (some .utf16le) st.trace.flatten =
      .error (.reader "expected low surrogate area" 2 0xE000) :=
  ⟨0x10400, _, by decide, by decide, rfl, by decide, rfl⟩

/-! ### C10 -/

/-- **C10.** String output: for every memory block (`mem`, of the declared size), encoding and history of operations,
nothing undefined happens, the block keeps its size, `size_written` bytes of it are the beginning of the output and
the rest is untouched. If the history ends in a flush, it fails iff the output does not fit, and otherwise
everything was written. -/
theorem C10_string_output (mem : List UInt8) (e : Enc) (ops : List WOp) (hv : ∀ op ∈ ops, op.Valid) :
    ∃ r st, runOps stringHandler ops (WS.init e { mem := mem }) = .ok (r, st) ∧
      st.sink.mem.length = mem.length ∧ st.sink.written ≤ mem.length ∧
      st.sink.mem.take st.sink.written <+: outBytes e (ops.flatMap WOp.text) ∧
      st.sink.mem.drop st.sink.written = mem.drop st.sink.written ∧
      (r = false → mem.length < (outBytes e (ops.flatMap WOp.text)).length ∧ st.sink.written = mem.length) ∧
      (r = true → ops.getLast? = some .flush →
        (outBytes e (ops.flatMap WOp.text)).length ≤ mem.length ∧
        st.sink.mem.take st.sink.written = outBytes e (ops.flatMap WOp.text)) := by
  obtain ⟨r, st, new, sent, left, h1, h2, h3, h4, h5, h6, h7, h8⟩ :=
    runOps_spec stringHandler _ stringHandler_safe ops hv (WS.init e { mem := mem }) [] (winv_init _ _) (by simp [WS.init])
  obtain ⟨s', f1, f2, f3, f4, f5⟩ := feed_string new { mem := mem } (by simp)
  simp only [WS.init] at h5 h6
  rw [f1] at h5
  injection h5 with h5
  injection h5 with hr hs
  rw [List.nil_append] at h7
  subst hs
  simp only [Nat.zero_add, h6, List.take_zero, List.nil_append, Nat.sub_zero] at f2 f3 f4 f5 hr
  have hlen : (outBytes e (ops.flatMap WOp.text)).length = (outBytes e sent).length + (outBytes e left).length := by
    rw [h7, outBytes_append, List.length_append]
  refine ⟨r, st, h1, f2, by omega, ?_, f5, ?_, ?_⟩
  · rw [f4, h7, outBytes_append]
    exact (List.take_prefix _ _).trans ⟨_, rfl⟩
  · intro hrf
    rw [hrf] at hr
    have := of_decide_eq_false hr
    omega
  · intro hrt hl
    rw [hrt] at hr
    have := of_decide_eq_true hr
    have hln := (h8 hrt).2 hl
    subst hln
    rw [List.append_nil] at h7
    rw [h7]
    refine ⟨by omega, ?_⟩
    rw [f4, f3, List.take_of_length_le (by omega)]

example : ∃ st, runOps stringHandler [.chars [0x61], .chars [0x62], .chars [0x63], .flush]
    (WS.init .utf8 { mem := [1, 2] }) = .ok (false, st) ∧ st.sink.mem = [0x61, 0x62] ∧ st.sink.written = 2 :=
  ⟨_, rfl, rfl, rfl⟩
example : ∃ st, runOps stringHandler [.chars [0x61], .flush]
    (WS.init .utf16le { mem := [1, 2, 3] }) = .ok (true, st) ∧ st.sink.mem = [0x61, 0x00, 3] ∧ st.sink.written = 2 :=
  ⟨_, rfl, rfl, rfl⟩

/-! ### C11 -/

/-- **C11, until the first failed write.** No history of operations writes outside the working buffer or the raw
buffer, or loops, up to and including the first failed write. Missing: histories that go on after a failed write
with UTF-16 output, where it is false (`C11_violated_after_failed_write`). -/
theorem C11_output_buffers_never_overflow_partial {σ : Type} (h : Handler σ) (I : σ → Prop) (hub : Safe h I)
    (ops : List WOp) (hv : ∀ op ∈ ops, op.Valid) (e : Enc) (s : σ) (hI : I s) :
    ∃ r st, runOps h ops (WS.init e s) = .ok (r, st) ∧
      (r = true → st.buf.length ≤ outCap ∧ st.raw.length ≤ outRawCap) := by
  obtain ⟨r, st, new, sent, left, h1, h2, h3, h4, h5, h6, h7, h8⟩ :=
    runOps_spec h I hub ops hv (WS.init e s) [] (winv_init _ _) hI
  refine ⟨r, st, h1, fun hr => ⟨(h8 hr).1.cap, ?_⟩⟩
  rw [(h8 hr).1.raw]; simp

/-- **C11 for UTF-8 output** holds for all histories, also when the client goes on after failed writes. -/
theorem C11_utf8_output_never_overflows {σ : Type} (h : Handler σ) (I : σ → Prop) (hub : Safe h I)
    (ops : List WOp) (hv : ∀ op ∈ ops, op.Valid) (s : σ) (hI : I s) :
    ∃ st, runAll h ops (WS.init .utf8 s) = .ok st ∧ st.buf.length ≤ outCap := by
  have key : ∀ (ops : List WOp) (st : WS σ), (∀ op ∈ ops, op.Valid) → st.enc = .utf8 → I st.sink →
      st.buf.length ≤ outCap → ∃ st', runAll h ops st = .ok st' ∧ st'.buf.length ≤ outCap := by
    intro ops
    induction ops with
    | nil => intro st _ _ _ hc; exact ⟨st, rfl, hc⟩
    | cons op ops ih =>
      intro st hv he hI hc
      have hflush : ∃ r st1, flush h st = .ok (r, st1) ∧ st1.enc = .utf8 ∧ I st1.sink ∧ st1.buf = [] := by
        unfold flush
        split
        · rename_i hb
          exact ⟨true, st, rfl, he, hI, by simpa using hb⟩
        · rw [he]
          obtain ⟨r, s', hs, hI'⟩ := hub st.sink st.buf hI
          simp only [hs]
          exact ⟨r, _, rfl, rfl, hI', rfl⟩
      have hop : ∃ r st1, op.run h st = .ok (r, st1) ∧ st1.enc = .utf8 ∧ I st1.sink ∧ st1.buf.length ≤ outCap := by
        cases op with
        | flush =>
          obtain ⟨r, st1, f1, f2, f3, f4⟩ := hflush
          exact ⟨r, st1, f1, f2, f3, by rw [f4]; simp⟩
        | chars cs =>
          have hlen : (utf8s cs).length ≤ 6 := (hv _ (List.mem_cons_self)).2
          simp only [WOp.run, emitBytes]
          split
          · unfold WS.store
            rw [if_pos (by omega)]
            exact ⟨true, _, rfl, he, hI, by simp only [List.length_append]; omega⟩
          · obtain ⟨r, st1, f1, f2, f3, f4⟩ := hflush
            rw [f1]
            cases r
            · exact ⟨false, st1, rfl, f2, f3, by rw [f4]; simp⟩
            · simp only [WS.store]
              rw [if_pos (by rw [f4]; simp only [List.length_nil]; unfold outCap; omega)]
              exact ⟨true, _, rfl, f2, f3, by
                simp only [List.length_append]; rw [f4]; simp only [List.length_nil]; unfold outCap; omega⟩
      obtain ⟨r, st1, f1, f2, f3, f4⟩ := hop
      simp only [runAll, f1]
      exact ih st1 (fun o ho => hv o (by simp [ho])) f2 f3 f4
  exact key ops (WS.init .utf8 s) hv rfl hI (by simp [WS.init])

/-- A handler that always fails. -/
def failHandler : Handler Unit := fun s _ => .ok (false, s)
theorem failHandler_safe : Safe failHandler (fun _ => True) := fun s _ _ => ⟨false, s, rfl, trivial⟩

theorem runAll_fill (n : Nat) (st : WS Unit) (hn : st.buf.length + n + 5 ≤ outCap) :
    runAll failHandler (List.replicate n (.chars [0x61])) st = .ok { st with buf := st.buf ++ List.replicate n 0x61 } := by
  induction n generalizing st with
  | zero => simp [runAll]
  | succ n ih =>
    have h1 : utf8s [0x61] = [0x61] := rfl
    rw [List.replicate_succ]
    simp only [runAll, WOp.run, emitBytes, h1, WS.store, List.length_cons, List.length_nil]
    rw [if_pos (by omega), if_pos (by omega)]
    simp only
    rw [ih _ (by simp only [List.length_append, List.length_cons, List.length_nil]; omega)]
    simp [List.replicate_succ]

theorem runAll_append {σ : Type} (h : Handler σ) (a b : List WOp) (st st' : WS σ) (ha : runAll h a st = .ok st') :
    runAll h (a ++ b) st = runAll h b st' := by
  induction a generalizing st with
  | nil => simp only [runAll] at ha; cases ha; rfl
  | cons op a ih =>
    simp only [runAll, List.cons_append] at ha ⊢
    cases ho : op.run h st with
    | error e => rw [ho] at ha; cases ha
    | ok p =>
      obtain ⟨r, st1⟩ := p
      rw [ho] at ha
      exact ih st1 ha

theorem recoded_replicate_length (n : Nat) : (recoded true (List.replicate n 0x61)).length = 2 * n := by
  induction n with
  | zero => rfl
  | succ n ih =>
    have : recoded true (List.replicate (n + 1) 0x61) = recodeChar true 0x61 ++ recoded true (List.replicate n 0x61) := by
      rw [List.replicate_succ]; simp [recoded]
    rw [this, List.length_append, ih, recodeChar_length]; simp; omega

theorem replicate_utf8s (n : Nat) : List.replicate n (0x61 : UInt8) = utf8s (List.replicate n 0x61) := by
  induction n with
  | zero => rfl
  | succ n ih => rw [List.replicate_succ, List.replicate_succ, utf8s_cons, ih]; rfl

theorem recode_overflow (n : Nat) (raw : List UInt8) (h1 : raw.length ≤ outRawCap) (h2 : outRawCap < raw.length + 2 * n) :
    recode true n (List.replicate n 0x61) raw = .error .ub := by
  induction n generalizing raw with
  | zero => omega
  | succ n ih =>
    simp only [List.replicate_succ, recode]
    have hw : width (97 : UInt8).toNat = 1 := by decide
    rw [hw, if_neg (by simp)]
    have hv : foldTrail (leadBits (97 : UInt8).toNat) (List.take (1 - 1) (List.replicate n (97 : UInt8))) = 97 := by
      simp only [Nat.sub_self, List.take_zero]; decide
    rw [hv]
    have hl : (recodeChar true 97).length = 2 := by decide
    by_cases hle : raw.length + 2 ≤ outRawCap
    · rw [if_pos (by omega)]
      simp only [Nat.sub_self, List.drop_zero]
      exact ih _ (by rw [List.length_append]; omega) (by rw [List.length_append]; omega)
    · rw [if_neg (by omega)]

theorem two_flushes_overflow (n : Nat) (hn0 : 0 < n) (hn : 2 * n ≤ outRawCap) (hn2 : outRawCap < 4 * n) (st : WS Unit)
    (hb : st.buf = List.replicate n 0x61) (hr : st.raw = []) (he : st.enc = .utf16le) :
    runAll failHandler [.flush, .flush] st = .error .ub := by
  have hrec : recode true n (List.replicate n 0x61) [] = .ok (recoded true (List.replicate n 0x61)) := by
    have := recode_spec true n (List.replicate n 0x61) []
      (fun c hc => by rw [List.eq_of_mem_replicate hc]; decide) (by rw [← replicate_utf8s]; simp)
      (by rw [recoded_replicate_length]; simpa using hn)
    rw [← replicate_utf8s] at this
    simpa using this
  have hne : (List.replicate n (0x61 : UInt8)).isEmpty = false := by
    cases n with
    | zero => omega
    | succ n => rfl
  have hov := recode_overflow n (recoded true (List.replicate n 0x61)) (by rw [recoded_replicate_length]; exact hn)
    (by rw [recoded_replicate_length]; omega)
  have hbeq : (Enc.utf16le == Enc.utf16le) = true := rfl
  obtain ⟨enc, buf, raw, sink, trace⟩ := st
  simp only at hb hr he
  subst hb hr he
  simp only [runAll, WOp.run, flush, hne, hbeq, List.length_replicate, hrec, failHandler, hov, Bool.false_eq_true, if_false]

/-- **C11 is violated** when a client goes on emitting after a failed write with UTF-16 output: neither buffer was reset
(writer.c:137-139), so the next flush recodes the same bytes behind those already in the raw buffer and writes beyond
its end. -/
theorem C11_violated_after_failed_write : ∃ ops : List WOp, (∀ op ∈ ops, op.Valid) ∧
    runAll failHandler ops (WS.init .utf16le ()) = .error .ub := by
  refine ⟨List.replicate 16379 (.chars [0x61]) ++ [.flush, .flush], ?_, ?_⟩
  · intro op hop
    rcases List.mem_append.mp hop with h | h
    · rw [List.eq_of_mem_replicate h]
      exact ⟨by simp, by decide⟩
    · simp at h; subst h; trivial
  · rw [runAll_append _ _ _ _ _ (runAll_fill 16379 (WS.init .utf16le ()) (by simp [WS.init, outCap]))]
    exact two_flushes_overflow 16379 (by omega) (by decide) (by decide) _ (by simp only [WS.init, List.nil_append]) rfl rfl

/-! ### C15 -/

/-- **C15.** `yaml_check_utf8` accepts exactly the byte strings made of shortest-form encodings of 21-bit values. -/
theorem C15_check_utf8 (bytes : List UInt8) :
    checkUtf8 bytes = true ↔ ∃ cs, bytes = utf8s cs ∧ ∀ c ∈ cs, c < 0x200000 :=
  checkLoop_iff bytes.length bytes (Nat.le_refl _)

/-- Every well-formed UTF-8 text is accepted. -/
theorem C15_well_formed_accepted (cs : List Nat) (h : ∀ c ∈ cs, IsScalar c) : checkUtf8 (utf8s cs) = true :=
  (C15_check_utf8 _).mpr ⟨cs, rfl, fun c hc => by have := h c hc; unfold IsScalar at this; omega⟩

example : checkUtf8 [0x61, 0xC3, 0xA9] = true := rfl
example : checkUtf8 [0xC0, 0x80] = false ∧ checkUtf8 [0xC3] = false ∧ checkUtf8 [0xC3, 0x41] = false ∧
    checkUtf8 [0x80] = false ∧ checkUtf8 [0xE0, 0x80, 0x80] = false := by decide

/-- It also accepts encoded surrogates and values above U+10FFFF, which are not well-formed UTF-8 and which the
library's own reader refuses. -/
theorem C15_accepts_ill_formed : checkUtf8 [0xED, 0xA0, 0x80] = true ∧ checkUtf8 [0xF4, 0x90, 0x80, 0x80] = true ∧
    readAll (fun _ => some 1) (some .utf8) [0xED, 0xA0, 0x80] = .error (.reader "invalid Unicode character" 0 0xD800) ∧
    readAll (fun _ => some 1) (some .utf8) [0xF4, 0x90, 0x80, 0x80] =
      .error (.reader "invalid Unicode character" 0 0x110000) :=
  ⟨rfl, rfl, rfl, rfl⟩

end LibYaml
