import Verif.Proofs.Prog

/-!
# C01-C07: the input side

`readAll o enc bytes` reads a whole input through a handler that splits it as `o` says. `Reach o enc bytes k st` are the
reader states reachable by requests and skips. Inputs of 2^63 - 1 bytes or more are excluded
(`maxFileSize`: the reader refuses them with "input is too long").
-/

namespace LibYaml

open Spec

theorem decodes_split {e : Enc} {bytes : List UInt8} {cs : List Nat} (h : Decodes e bytes cs) : Split e bytes cs [] :=
  ⟨by simpa using h.1, h.2, stuck_nil e⟩

theorem decode_outcome (o : Oracle) (ho : NoFail o) (enc : Option Enc) (bytes : List UInt8)
    (hsize : bytes.length < maxFileSize) :
    (∀ cs, readAll o enc bytes = .ok cs ↔ Decodes (chosen enc bytes).1 (chosen enc bytes).2 cs) ∧
    ((¬ ∃ cs, Decodes (chosen enc bytes).1 (chosen enc bytes).2 cs) →
      ∃ p off v, readAll o enc bytes = .error (.reader p off v)) := by
  have hno : ∀ er, ¬ InputErr o er := fun er h => h.1 ho
  constructor
  · intro cs
    constructor
    · intro h
      obtain ⟨good, tail, hs⟩ := exists_split (chosen enc bytes).1 (chosen enc bytes).2
      rcases readAll_spec o enc bytes hsize hs with ⟨er, _, h2⟩ | h2
      · exact absurd h2 (hno er)
      · rw [h] at h2
        split at h2
        · rename_i ht
          cases h2
          have := hs.eq
          rw [ht, List.append_nil] at this
          exact ⟨this, hs.perm⟩
        · cases h2
    · intro h
      rcases readAll_spec o enc bytes hsize (decodes_split h) with ⟨er, _, h2⟩ | h2
      · exact absurd h2 (hno er)
      · simpa using h2
  · intro hn
    obtain ⟨good, tail, hs⟩ := exists_split (chosen enc bytes).1 (chosen enc bytes).2
    rcases readAll_spec o enc bytes hsize hs with ⟨er, _, h2⟩ | h2
    · exact absurd h2 (hno er)
    · have ht : tail ≠ [] := by
        intro ht
        apply hn
        refine ⟨good, ?_, hs.perm⟩
        have := hs.eq
        rwa [ht, List.append_nil] at this
      rw [if_neg ht] at h2
      obtain ⟨p, off, v, he⟩ := errAt_reported (e := (chosen enc bytes).1) (off := bytes.length - tail.length) ht
      exact ⟨p, off, v, by rw [h2, he]⟩

/-- **C01.** With UTF-8 input, reading succeeds exactly on the UTF-8 encodings of permitted texts, and then yields that
text; every other byte string gives a reader error. -/
theorem C01_utf8_decoding_exact (o : Oracle) (ho : NoFail o) (bytes : List UInt8) (hsize : bytes.length < maxFileSize) :
    (∀ cs, readAll o (some .utf8) bytes = .ok cs ↔ (bytes = utf8s cs ∧ ∀ c ∈ cs, Permitted c)) ∧
    ((¬ ∃ cs, bytes = utf8s cs ∧ ∀ c ∈ cs, Permitted c) →
      ∃ p off v, readAll o (some .utf8) bytes = .error (.reader p off v)) :=
  decode_outcome o ho (some .utf8) bytes hsize

example : NoFail (fun _ => some 1) := by intro i h; cases h
example : readAll (fun _ => some 1) (some .utf8) [0x61, 0xC3, 0xA9, 0xF0, 0x90, 0x90, 0x80] = .ok [0x61, 0xE9, 0x10400] := rfl
example : readAll (fun _ => some 1) (some .utf8) [0x61, 0xC0, 0x80] =
    .error (.reader "invalid length of a UTF-8 sequence" 1 (-1)) := rfl

/-- **C02.** The same for UTF-16 in both byte orders. -/
theorem C02_utf16_decoding_exact (o : Oracle) (ho : NoFail o) (le : Bool) (bytes : List UInt8)
    (hsize : bytes.length < maxFileSize) :
    (∀ cs, readAll o (some (if le then .utf16le else .utf16be)) bytes = .ok cs ↔
      (bytes = utf16s le cs ∧ ∀ c ∈ cs, Permitted c)) ∧
    ((¬ ∃ cs, bytes = utf16s le cs ∧ ∀ c ∈ cs, Permitted c) →
      ∃ p off v, readAll o (some (if le then .utf16le else .utf16be)) bytes = .error (.reader p off v)) := by
  cases le
  · exact decode_outcome o ho (some .utf16be) bytes hsize
  · exact decode_outcome o ho (some .utf16le) bytes hsize

example : readAll (fun h => some h.length) (some .utf16le) [0x61, 0x00, 0x01, 0xD8, 0x00, 0xDC] = .ok [0x61, 0x10400] := rfl
example : readAll (fun h => some h.length) (some .utf16be) [0x00, 0x61, 0xD8, 0x01] =
    .error (.reader "incomplete UTF-16 surrogate pair" 2 (-1)) := rfl

/-- **C03.** In every reachable reader state every buffered character is permitted, except that the last one may be NUL,
and then the whole input has been decoded and had exactly as many characters as were skipped or buffered before
that NUL: an embedded NUL or control character is never mistaken for the end. -/
theorem C03_only_permitted_characters (o : Oracle) (enc : Option Enc) (bytes : List UInt8)
    (hsize : bytes.length < maxFileSize) (k : Nat) (st : RS) (h : Reach o enc bytes k st) :
    ∃ cur, st.buf = utf8s cur ∧ st.unread = cur.length ∧ ∀ (i : Nat) (hi : i < cur.length),
      Permitted cur[i] ∨
      (cur[i] = 0 ∧ i + 1 = cur.length ∧
        ∃ cs, Decodes (chosen enc bytes).1 (chosen enc bytes).2 cs ∧ cs.length = k + i) := by
  obtain ⟨good, tail, hs⟩ := exists_split (chosen enc bytes).1 (chosen enc bytes).2
  obtain ⟨hk, hst⟩ := reach_stream hsize hs h
  obtain ⟨cur, fut, hrep, heq⟩ := stream_prefix hst
  refine ⟨cur, hrep.buf, hrep.unread, ?_⟩
  intro i hi
  have hget : (inputOf enc bytes good tail).cs[k + i]? = some cur[i] := by
    rw [← List.getElem?_drop, heq, List.getElem?_append_left hi, List.getElem?_eq_getElem hi]
  simp only [inputOf] at hget heq hk
  by_cases hg : k + i < good.length
  · left
    rw [List.getElem?_append_left hg, List.getElem?_eq_getElem hg] at hget
    injection hget with hget
    rw [← hget]
    exact hs.perm _ (List.getElem_mem hg)
  · right
    rw [List.getElem?_append_right (by omega)] at hget
    by_cases ht : tail = []
    · rw [if_pos ht] at hget heq hk
      have hlen : k + i - good.length < 1 := by
        have := List.getElem?_eq_some_iff.mp hget
        simpa using this.1
      have hki : k + i = good.length := by omega
      rw [hki] at hget
      simp at hget
      have hl := congrArg List.length heq
      simp only [List.length_drop, List.length_append, List.length_cons, List.length_nil] at hl
      refine ⟨hget.symm, by omega, good, ⟨?_, hs.perm⟩, hki.symm⟩
      have := hs.eq
      rwa [ht, List.append_nil] at this
    · rw [if_neg ht] at hget
      simp at hget

example : ∃ st, Reach (fun _ => some 2) none [0x61, 0x0A] 2 st ∧ st.buf = [0] :=
  ⟨_, .skip (.skip (.cache 3 (by decide) .init rfl) rfl) rfl, rfl⟩

/-- **C04.** Detection of the encoding: a byte order mark selects the encoding and is removed; without one the input is
UTF-8 and nothing is removed; a set encoding is used as it is, so that a mark is then an ordinary character (or
undecodable). -/
theorem C04_encoding_detection (o : Oracle) (ho : NoFail o) (r bytes : List UInt8) (hsize : r.length + 3 < maxFileSize)
    (hsize' : bytes.length < maxFileSize) (cs : List Nat) :
    (readAll o none (0xFF :: 0xFE :: r) = .ok cs ↔ Decodes .utf16le r cs) ∧
    (readAll o none (0xFE :: 0xFF :: r) = .ok cs ↔ Decodes .utf16be r cs) ∧
    (readAll o none (0xEF :: 0xBB :: 0xBF :: r) = .ok cs ↔ Decodes .utf8 r cs) ∧
    ((¬ [0xFF, 0xFE] <+: bytes) → (¬ [0xFE, 0xFF] <+: bytes) → (¬ [0xEF, 0xBB, 0xBF] <+: bytes) →
      (readAll o none bytes = .ok cs ↔ Decodes .utf8 bytes cs)) ∧
    (∀ e, readAll o (some e) bytes = .ok cs ↔ Decodes e bytes cs) := by
  refine ⟨?_, ?_, ?_, ?_, ?_⟩
  · exact (decode_outcome o ho none (0xFF :: 0xFE :: r) (by simp only [List.length_cons]; omega)).1 cs
  · exact (decode_outcome o ho none (0xFE :: 0xFF :: r) (by simp only [List.length_cons]; omega)).1 cs
  · exact (decode_outcome o ho none (0xEF :: 0xBB :: 0xBF :: r) (by simp only [List.length_cons]; omega)).1 cs
  · intro h1 h2 h3
    have hd : chosen none bytes = (.utf8, bytes) := by
      unfold chosen detect
      simp only
      split
      · exact absurd ⟨_, rfl⟩ h1
      · exact absurd ⟨_, rfl⟩ h2
      · exact absurd ⟨_, rfl⟩ h3
      · rfl
    have := (decode_outcome o ho none bytes hsize').1 cs
    rw [hd] at this
    exact this
  · intro e
    exact (decode_outcome o ho (some e) bytes hsize').1 cs

example : readAll (fun _ => some 1) none [0xFF, 0xFE, 0x61, 0x00] = .ok [0x61] := rfl
example : readAll (fun _ => some 1) (some .utf8) [0xEF, 0xBB, 0xBF, 0x61] = .ok [0xFEFF, 0x61] := rfl

/-- **C05.** What is read depends on the bytes only, not on how the handler splits them; also the error, if there is
one, is the same (kind, offset and value). -/
theorem C05_chunking_independence (o o' : Oracle) (ho : NoFail o) (ho' : NoFail o') (enc : Option Enc)
    (bytes : List UInt8) (hsize : bytes.length < maxFileSize) : readAll o enc bytes = readAll o' enc bytes := by
  obtain ⟨good, tail, hs⟩ := exists_split (chosen enc bytes).1 (chosen enc bytes).2
  rcases readAll_spec o enc bytes hsize hs with ⟨er, _, h2⟩ | h2
  · exact absurd ho h2.1
  rcases readAll_spec o' enc bytes hsize hs with ⟨er, _, h2'⟩ | h2'
  · exact absurd ho' h2'.1
  rw [h2, h2']

example : readAll (fun _ => some 1) none [0xFE, 0xFF, 0xD8, 0x01, 0x00] =
    .error (.reader "incomplete UTF-16 surrogate pair" 2 (-1)) := rfl
example : readAll (fun _ => some 100) none [0xFE, 0xFF, 0xD8, 0x01, 0x00] =
    .error (.reader "incomplete UTF-16 surrogate pair" 2 (-1)) := rfl

/-- **C05, for any client.** A program over the input (for instance the scanner, see `Verif/Model/Scanner.lean`) that is
free of undefined behaviour on the decoded characters gives the same result for every handler, on decodable input. -/
theorem C05_client_chunking_independence {α : Type} (p : Prog α) (o : Oracle) (ho : NoFail o) (enc : Option Enc)
    (bytes : List UInt8) (hsize : bytes.length < maxFileSize) (cs : List Nat)
    (hd : Decodes (chosen enc bytes).1 (chosen enc bytes).2 cs)
    (hub : p.run { cs := cs ++ [0] } ≠ .error .ub) :
    (p.runR o (RS.init bytes enc)).map Prod.fst = (p.run { cs := cs ++ [0] }).map Prod.fst := by
  have hrel := rel_init enc bytes cs [] hsize (decodes_split hd)
  have hin : inputOf enc bytes cs [] = { cs := cs ++ [0] } := by simp [inputOf]
  rw [hin] at hrel
  rcases runR_refines o p _ _ hrel hub with ⟨er, _, h2 | h2⟩ | ⟨e, h1, h2⟩ | ⟨a, i', st', h1, h2, h3⟩
  · exact absurd ho h2.1
  · cases h2
  · rw [h1, h2]; rfl
  · rw [h1, h2]; rfl

/-- **C06.** In every reachable state both buffers are within their capacity, and a further request of at most 6144
characters never writes outside them (nor loops): it succeeds or reports a reader error. -/
theorem C06_input_buffers_never_overflow (o : Oracle) (enc : Option Enc) (bytes : List UInt8)
    (hsize : bytes.length < maxFileSize) (k : Nat) (st : RS) (h : Reach o enc bytes k st) :
    st.bufOff + st.buf.length ≤ bufCap ∧ st.rawOff + st.raw.length ≤ rawCap ∧
    ∀ n ≤ 6144, (∃ st', cacheR o st n = .ok st') ∨ ∃ p off v, cacheR o st n = .error (.reader p off v) := by
  obtain ⟨good, tail, hs⟩ := exists_split (chosen enc bytes).1 (chosen enc bytes).2
  obtain ⟨hk, hst⟩ := reach_stream hsize hs h
  refine ⟨hst.cap, hst.rawcap, ?_⟩
  intro n hn
  rcases cache_spec o st _ _ n hn hst with ⟨st', c1, _⟩ | ⟨er, c1, c2 | c2⟩
  · exact Or.inl ⟨st', c1⟩
  · obtain ⟨off, hoff⟩ := c2.2
    exact Or.inr ⟨_, _, _, by rw [c1, hoff]⟩
  · right
    simp only [inputOf] at c2
    by_cases ht : tail = []
    · rw [if_pos ht] at c2; cases c2
    · rw [if_neg ht] at c2
      injection c2 with c2
      obtain ⟨p, off, v, he⟩ := errAt_reported (e := (chosen enc bytes).1) (off := bytes.length - tail.length) ht
      exact ⟨p, off, v, by rw [c1, ← c2, he]⟩

/-- **C07.** A successful request for `n` characters leaves at least `n` unread characters, or all remaining ones followed
by exactly one NUL; the buffer always shows the decoded text from the current position `k` on, so what was buffered
before is still there, in order. `good` is the decodable text of the input. -/
theorem C07_refill_delivers (o : Oracle) (enc : Option Enc) (bytes : List UInt8) (hsize : bytes.length < maxFileSize)
    (good : List Nat) (tail : List UInt8) (hs : Split (chosen enc bytes).1 (chosen enc bytes).2 good tail)
    (k : Nat) (st : RS) (h : Reach o enc bytes k st) (n : Nat) (hn : n ≤ 6144) (st' : RS)
    (hok : cacheR o st n = .ok st') :
    st.unread ≤ st'.unread ∧
    st.buf = utf8s (((good ++ [0]).drop k).take st.unread) ∧
    st'.buf = utf8s (((good ++ [0]).drop k).take st'.unread) ∧
    (n ≤ st'.unread ∨ tail = [] ∧ k + st'.unread = good.length + 1) := by
  obtain ⟨hk, hst⟩ := reach_stream hsize hs h
  obtain ⟨hk', hst'⟩ := reach_stream hsize hs (Reach.cache n hn h hok)
  have key : ∀ s : RS, Stream s ((inputOf enc bytes good tail).cs.drop k) (inputOf enc bytes good tail).bad →
      s.buf = utf8s (((good ++ [0]).drop k).take s.unread) ∧
      s.unread ≤ ((inputOf enc bytes good tail).cs.drop k).length := by
    intro s hstr
    obtain ⟨cur, fut, hrep, heq⟩ := stream_prefix hstr
    have hc : cur = ((inputOf enc bytes good tail).cs.drop k).take s.unread := by
      rw [heq, hrep.unread]; simp
    refine ⟨?_, by rw [heq, hrep.unread]; simp⟩
    rw [hrep.buf, hc]
    simp only [inputOf]
    by_cases ht : tail = []
    · rw [if_pos ht]
    · rw [if_neg ht]
      have hle : s.unread ≤ (good.drop k).length := by
        have := congrArg List.length heq
        simp only [inputOf, if_neg ht, List.append_nil, List.length_append] at this
        rw [hrep.unread, this]; omega
      rw [List.append_nil]
      by_cases hkg : k ≤ good.length
      · rw [List.drop_append_of_le_length hkg, List.take_append_of_le_length hle]
      · have : s.unread = 0 := by
          simp only [List.length_drop] at hle; omega
        rw [this]; simp
  rcases cache_spec o st _ _ n hn hst with ⟨st2, c1, c2, c3, c4, c5⟩ | ⟨er, c1, _⟩
  · rw [hok] at c1; cases c1
    refine ⟨c3, (key st hst).1, (key st' hst').1, ?_⟩
    by_cases hle : n ≤ st'.unread
    · exact Or.inl hle
    · right
      have ht : tail = [] := by
        apply Classical.byContradiction
        intro ht
        exact hle (c5 (by simp [inputOf, ht]))
      have hu := (key st' hst').2
      simp only [inputOf, if_pos ht, List.length_drop, List.length_append, List.length_cons, List.length_nil] at hu c4 hk
      exact ⟨ht, by omega⟩
  · rw [hok] at c1; cases c1

example : ∃ st st', Reach (fun _ => some 1) (some .utf8) [0x61, 0x62, 0x63] 1 st ∧
    cacheR (fun _ => some 1) st 2 = .ok st' ∧ st.buf = [] ∧ st'.buf = [0x62, 0x63] :=
  ⟨_, _, .skip (.cache 1 (by decide) .init rfl) rfl, rfl, rfl, rfl⟩
example : ∃ st st', Reach (fun _ => some 1) (some .utf8) [0x61, 0x62, 0x63] 1 st ∧
    cacheR (fun _ => some 1) st 4 = .ok st' ∧ st'.buf = [0x62, 0x63, 0] :=
  ⟨_, _, .skip (.cache 1 (by decide) .init rfl) rfl, rfl, rfl⟩

end LibYaml
