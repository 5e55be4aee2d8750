import Verif.Proofs.Stream
import Verif.Model.Prog

/-! Programs over the reader behave as over the list of decoded characters. -/

namespace LibYaml

open Spec

/-! ### `bind` -/

theorem Prog.bind_assoc {α β γ : Type} (p : Prog α) (f : α → Prog β) (g : β → Prog γ) :
    (p.bind f).bind g = p.bind fun a => (f a).bind g := by
  induction p with
  | ret a => rfl
  | fail e => rfl
  | cache n k ih => simp only [Prog.bind, ih]
  | look i k ih => simp only [Prog.bind, ih]
  | skip k ih => simp only [Prog.bind, ih]

theorem Prog.run_bind {α β : Type} (p : Prog α) (f : α → Prog β) (i : In) :
    (p.bind f).run i = match p.run i with
      | .error e => .error e
      | .ok (a, i) => (f a).run i := by
  induction p generalizing i with
  | ret a => rfl
  | fail e => rfl
  | cache n k ih =>
    simp only [Prog.bind, Prog.run]
    cases i.cache n with
    | error e => rfl
    | ok i => exact ih i
  | look j k ih =>
    simp only [Prog.bind, Prog.run]
    cases i.look j with
    | error e => rfl
    | ok c => exact ih c i
  | skip k ih =>
    simp only [Prog.bind, Prog.run]
    cases i.skip with
    | error e => rfl
    | ok i => exact ih i

/-! ### The reader operations on a stream -/

theorem stream_prefix {st : RS} {s : List Nat} {bad : Option RFail} (h : Stream st s bad) :
    ∃ cur fut, Rep st cur ∧ s = cur ++ fut := by
  obtain ⟨_, _, _, _, cur, hrep, ht, hf⟩ := h
  cases he : st.eof with
  | true => exact ⟨cur, [], hrep, by simp [(ht he).2.2.1]⟩
  | false =>
    obtain ⟨good, tail, _, hs, _⟩ := hf he
    exact ⟨cur, _, hrep, by rw [hs, List.append_assoc]⟩

theorem utf8s_cons (c : Nat) (cs : List Nat) : utf8s (c :: cs) = utf8 c ++ utf8s cs := rfl

theorem utf8_ascii {c : Nat} (h : c < 0x80) : utf8 c = [UInt8.ofNat c] := by
  unfold utf8; rw [if_pos h]

theorem utf8s_drop_ascii (cs : List Nat) (j : Nat) (h : (cs.take j).all (· < 0x80)) :
    (utf8s cs).drop j = utf8s (cs.drop j) := by
  induction cs generalizing j with
  | nil => simp [utf8s]
  | cons c cs ih =>
    cases j with
    | zero => simp
    | succ j =>
      simp only [List.take_succ_cons, List.all_cons, Bool.and_eq_true, decide_eq_true_eq] at h
      rw [utf8s_cons, utf8_ascii h.1]
      simp only [List.cons_append, List.nil_append, List.drop_succ_cons]
      exact ih j h.2

theorem lookR_spec {st : RS} {cur : List Nat} (h : Rep st cur) (j : Nat) (hj : j < cur.length)
    (ha : (cur.take j).all (· < 0x80)) : lookR st j = .ok cur[j] := by
  unfold lookR
  rw [if_pos (by rw [h.unread]; exact hj), h.buf, utf8s_drop_ascii cur j ha,
    List.drop_eq_getElem_cons hj, utf8s_cons, stepUtf8_of_utf8 _ _ _ _ (h.scalar _ (List.getElem_mem hj))]

theorem skipR_spec {st : RS} {c : Nat} {cur : List Nat} (h : Rep st (c :: cur)) :
    ∃ st', skipR st = .ok st' ∧ Rep st' cur ∧ st'.bufOff + st'.buf.length = st.bufOff + st.buf.length ∧
      st'.raw = st.raw ∧ st'.rawOff = st.rawOff ∧ st'.src = st.src ∧ st'.eof = st.eof ∧ st'.enc = st.enc ∧
      st'.offset = st.offset := by
  obtain ⟨b, t, hb, hw⟩ := utf8_head c (h.scalar c (by simp))
  have hbuf : st.buf = b :: (t ++ utf8s cur) := by rw [h.buf, utf8s_cons, hb]; rfl
  have hpos := utf8_length_pos c
  have hlen : st.buf.length = (utf8 c).length + (utf8s cur).length := by
    rw [h.buf, utf8s_cons, List.length_append]
  unfold skipR
  rw [hbuf]
  simp only
  rw [← hbuf, hw, h.unread, if_neg (by simp only [List.length_cons]; omega)]
  refine ⟨_, rfl, ⟨?_, by simp, fun x hx => h.scalar x (by simp [hx])⟩, ?_, rfl, rfl, rfl, rfl, rfl, rfl⟩
  · simp only; rw [h.buf, utf8s_cons]; simp
  · simp only [List.length_drop]; omega

/-- The abstract input `i` describes the reader state `st`. -/
structure Rel (st : RS) (i : In) : Prop where
  stream : Stream st i.cs i.bad
  avail : i.avail ≤ st.unread
  le : i.avail ≤ i.cs.length

theorem rel_cur {st : RS} {i : In} (h : Rel st i) : ∃ cur fut, Rep st cur ∧ i.cs = cur ++ fut ∧ i.avail ≤ cur.length := by
  obtain ⟨cur, fut, hr, hs⟩ := stream_prefix h.stream
  exact ⟨cur, fut, hr, hs, by rw [← hr.unread]; exact h.avail⟩

theorem rel_cache {o : Oracle} {st : RS} {i : In} (h : Rel st i) (n : Nat) (hn : n ≤ maxLookahead) :
    (∃ st' i', cacheR o st n = .ok st' ∧ i.cache n = .ok i' ∧ Rel st' i')
    ∨ (∃ er, cacheR o st n = .error er ∧ (InputErr o er ∨ i.bad = some er)) := by
  rcases cache_spec o st i.cs i.bad n (by unfold maxLookahead at hn; exact hn) h.stream with ⟨st', c1, c2, c3, c4, c5⟩ | c
  · left
    unfold In.cache
    rw [if_neg (by omega)]
    have h1 := h.avail; have h2 := h.le
    split
    · rename_i hle
      exact ⟨st', i, c1, rfl, c2, by omega, h.le⟩
    split
    · rename_i hlen
      exact ⟨st', _, c1, rfl, c2, by simp only; omega, by simpa using hlen⟩
    · rename_i hlen
      cases hb : i.bad with
      | none => refine ⟨st', _, c1, rfl, by rw [hb] at c2; exact c2, by simp only; omega, by simp⟩
      | some e =>
        exfalso
        have := c5 (by rw [hb]; simp)
        obtain ⟨cur, fut, hr, hs⟩ := stream_prefix c2
        rw [hr.unread] at this
        have := congrArg List.length hs
        simp only [List.length_append] at this
        omega
  · right; exact c

theorem rel_look {st : RS} {i : In} (h : Rel st i) (j : Nat) :
    i.look j = .error .ub ∨ ∃ c, lookR st j = .ok c ∧ i.look j = .ok c := by
  obtain ⟨cur, fut, hr, hs, hav⟩ := rel_cur h
  unfold In.look
  split
  · rename_i hc
    right
    have hj : j < cur.length := by omega
    have hja : (cur.take j).all (· < 0x80) = true := by
      have := hc.2
      rwa [hs, List.take_append_of_le_length (by omega)] at this
    refine ⟨cur[j], lookR_spec hr j hj hja, ?_⟩
    rw [hs, List.getElem?_append_left hj, List.getElem?_eq_getElem hj]
  · left; rfl

theorem stream_skip {st : RS} {c : Nat} {cs : List Nat} {bad : Option RFail} (h : Stream st (c :: cs) bad)
    (hu : 0 < st.unread) : ∃ st', skipR st = .ok st' ∧ Stream st' cs bad ∧ st'.unread = st.unread - 1 := by
  obtain ⟨h1, h2, h3, h4, cur, hr, ht, hf⟩ := h
  cases cur with
  | nil => have := hr.unread; simp at this; omega
  | cons d cur =>
    obtain ⟨st', k1, k2, k3, k4, k5, k6, k7, k8, k9⟩ := skipR_spec hr
    have htot : total st' = total st := by unfold total; rw [k9, k4, k6]
    have hp : pending st' = pending st := by unfold pending; rw [k8, k4, k6]
    refine ⟨st', k1, ⟨by omega, by rw [k5, k4]; exact h2, by rw [htot]; exact h3, ?_, cur, k2, ?_, ?_⟩, ?_⟩
    · rw [k8, k4, k7]; exact h4
    · rw [k7, k4, k6]
      intro he
      obtain ⟨a, b, c', d'⟩ := ht he
      injection c' with _ c'
      exact ⟨a, b, c', d'⟩
    · rw [k7, hp, htot]
      intro he
      obtain ⟨good, tail, a, b, c'⟩ := hf he
      simp only [List.cons_append] at b
      injection b with _ b
      exact ⟨good, tail, a, b, c'⟩
    · rw [k2.unread, hr.unread]; simp

theorem rel_skip {st : RS} {i : In} (h : Rel st i) :
    i.skip = .error .ub ∨ ∃ st' i', skipR st = .ok st' ∧ i.skip = .ok i' ∧ Rel st' i' := by
  unfold In.skip
  have hle := h.le
  have hav := h.avail
  cases hcs : i.cs with
  | nil => left; rfl
  | cons c cs =>
    by_cases h0 : i.avail = 0
    · left; simp [h0]
    · right
      have hst := h.stream
      rw [hcs] at hst hle
      obtain ⟨st', k1, k2, k3⟩ := stream_skip hst (by omega)
      refine ⟨st', { i with cs := cs, avail := i.avail - 1 }, k1, by simp [h0], k2, by simp only; omega, ?_⟩
      simp only [List.length_cons] at hle ⊢
      omega

/-- **Refinement.** Run over the reader, a program that is well behaved on the list of characters has the same
outcome, unless the reader reports the handler's failure or the undecodable place. -/
theorem runR_refines {α : Type} (o : Oracle) (p : Prog α) (st : RS) (i : In) (h : Rel st i)
    (hub : p.run i ≠ .error .ub) :
    (∃ er, p.runR o st = .error er ∧ (InputErr o er ∨ i.bad = some er)) ∨
    (∃ e, p.run i = .error e ∧ p.runR o st = .error e) ∨
    (∃ a i' st', p.run i = .ok (a, i') ∧ p.runR o st = .ok (a, st') ∧ Rel st' i') := by
  induction p generalizing st i with
  | ret a => exact Or.inr (Or.inr ⟨a, i, st, rfl, rfl, h⟩)
  | fail e => exact Or.inr (Or.inl ⟨e, rfl, rfl⟩)
  | cache n k ih =>
    simp only [Prog.run, Prog.runR] at hub ⊢
    by_cases hn : n ≤ maxLookahead
    · rcases rel_cache (o := o) h n hn with ⟨st', i', h1, h2, h3⟩ | ⟨er, h1, h2⟩
      · rw [h1, h2]
        rw [h2] at hub
        have hbad : i'.bad = i.bad := by
          unfold In.cache at h2
          rw [if_neg (by omega)] at h2
          split at h2
          · cases h2; rfl
          split at h2
          · cases h2; rfl
          split at h2
          · cases h2
          · cases h2; rfl
        rw [← hbad]
        exact ih st' i' h3 hub
      · rw [h1]; exact Or.inl ⟨er, rfl, h2⟩
    · exfalso
      apply hub
      unfold In.cache
      rw [if_pos (by omega)]
  | look j k ih =>
    simp only [Prog.run, Prog.runR] at hub ⊢
    rcases rel_look h j with h1 | ⟨c, h1, h2⟩
    · rw [h1] at hub; exact absurd rfl hub
    · rw [h1, h2]
      rw [h2] at hub
      exact ih c st i h hub
  | skip k ih =>
    simp only [Prog.run, Prog.runR] at hub ⊢
    rcases rel_skip h with h1 | ⟨st', i', h1, h2, h3⟩
    · rw [h1] at hub; exact absurd rfl hub
    · rw [h1, h2]
      rw [h2] at hub
      have hbad : i'.bad = i.bad := by
        unfold In.skip at h2
        split at h2
        · cases h2
        split at h2 <;> cases h2
        rfl
      rw [← hbad]
      exact ih st' i' h3 hub

/-! ### The initial state -/

/-- The whole input as an abstract input, given its split. -/
def inputOf (enc : Option Enc) (bytes : List UInt8) (good : List Nat) (tail : List UInt8) : In where
  cs := good ++ (if tail = [] then [0] else [])
  avail := 0
  bad := if tail = [] then none else some (errAt (chosen enc bytes).1 (bytes.length - tail.length) tail)

theorem rel_init (enc : Option Enc) (bytes : List UInt8) (good : List Nat) (tail : List UInt8)
    (hsize : bytes.length < maxFileSize) (hs : Split (chosen enc bytes).1 (chosen enc bytes).2 good tail) :
    Rel (RS.init bytes enc) (inputOf enc bytes good tail) := by
  have hp : pending (RS.init bytes enc) = chosen enc bytes := by
    unfold pending RS.init chosen
    cases enc <;> simp
  refine ⟨⟨by simp [RS.init], by simp [RS.init], by simp [RS.init, total, hsize], fun _ => ⟨rfl, rfl⟩, [], ?_, ?_, ?_⟩,
    by simp [inputOf], by simp [inputOf]⟩
  · exact ⟨by simp [RS.init, utf8s], by simp [RS.init], by simp⟩
  · intro h; simp [RS.init] at h
  · intro _
    rw [hp]
    refine ⟨good, tail, hs, by simp [inputOf], ?_⟩
    simp [inputOf, total, RS.init]

/-! ### Reading everything -/

theorem drain_good (fuel : Nat) (good : List Nat) (av : Nat) (hav : av ≤ good.length + 1) (hf : good.length < fuel)
    (hg : ∀ c ∈ good, c ≠ 0) :
    ∃ i', (drain fuel).run { cs := good ++ [0], avail := av, bad := none } = .ok (good, i') := by
  induction good generalizing fuel av with
  | nil =>
    cases fuel with
    | zero => simp at hf
    | succ fuel =>
      simp only [drain, Prog.run, In.cache, maxLookahead, List.nil_append, List.length_cons, List.length_nil]
      refine ⟨{ cs := [0], avail := 1, bad := none }, ?_⟩
      have : av = 0 ∨ av = 1 := by simp at hav; omega
      rcases this with rfl | rfl <;> simp [In.look, Prog.run]
  | cons c good ih =>
    cases fuel with
    | zero => simp at hf
    | succ fuel =>
      have hc : c ≠ 0 := hg c (by simp)
      have hca : In.cache 1 { cs := (c :: good) ++ [0], avail := av, bad := none } =
          .ok { cs := (c :: good) ++ [0], avail := max 1 av, bad := none } := by
        unfold In.cache maxLookahead
        rw [if_neg (by omega)]
        split
        · rename_i h; congr 2; simp only at h; omega
        · rename_i h; simp only [List.length_append, List.length_cons, List.length_nil]
          rw [if_pos (by omega)]; congr 2; simp only at h; omega
      obtain ⟨i', hi⟩ := ih fuel (max 1 av - 1) (by simp at hav; omega) (by simpa using hf)
        (fun x hx => hg x (by simp [hx]))
      refine ⟨i', ?_⟩
      simp only [drain, Prog.run, hca]
      have hl : In.look 0 { cs := (c :: good) ++ [0], avail := max 1 av, bad := none } = .ok c := by
        unfold In.look
        rw [if_pos ⟨by simp only; omega, by simp⟩]
        rfl
      rw [hl]
      simp only [hc, if_false, Prog.run, In.skip, List.cons_append]
      rw [if_neg (by omega)]
      simp only
      rw [Prog.run_bind, hi]
      rfl

theorem drain_bad (fuel : Nat) (good : List Nat) (er : Fail) (av : Nat) (hav : av ≤ good.length) (hf : good.length < fuel)
    (hg : ∀ c ∈ good, c ≠ 0) :
    (drain fuel).run { cs := good, avail := av, bad := some er } = .error er := by
  induction good generalizing fuel av with
  | nil =>
    cases fuel with
    | zero => simp at hf
    | succ fuel =>
      have : av = 0 := by simpa using hav
      subst this
      simp [drain, Prog.run, In.cache, maxLookahead]
  | cons c good ih =>
    cases fuel with
    | zero => simp at hf
    | succ fuel =>
      have hc : c ≠ 0 := hg c (by simp)
      have hca : In.cache 1 { cs := c :: good, avail := av, bad := some er } =
          .ok { cs := c :: good, avail := max 1 av, bad := some er } := by
        unfold In.cache maxLookahead
        rw [if_neg (by omega)]
        split
        · rename_i h; congr 2; simp only at h; omega
        · rename_i h; simp only [List.length_cons]
          rw [if_pos (by omega)]; congr 2; simp only at h; omega
      have hi := ih fuel (max 1 av - 1) (by simp at hav; omega) (by simpa using hf)
        (fun x hx => hg x (by simp [hx]))
      simp only [drain, Prog.run, hca]
      have hl : In.look 0 { cs := c :: good, avail := max 1 av, bad := some er } = .ok c := by
        unfold In.look
        rw [if_pos ⟨by simp only; omega, by simp⟩]
        rfl
      rw [hl]
      simp only [hc, if_false, Prog.run, In.skip]
      rw [if_neg (by omega)]
      simp only
      rw [Prog.run_bind, hi]

theorem split_length {e : Enc} {bytes : List UInt8} {good : List Nat} {tail : List UInt8} (h : Split e bytes good tail) :
    good.length + tail.length ≤ bytes.length := by
  have := congrArg List.length h.eq
  rw [List.length_append] at this
  have h2 : ∀ l : List Nat, l.length ≤ (encodes e l).length := by
    intro l
    induction l with
    | nil => simp
    | cons c l ih =>
      have := encode_length_pos e c
      rw [encodes_cons, List.length_append, List.length_cons]; omega
  have := h2 good
  omega

theorem chosen_length (enc : Option Enc) (bytes : List UInt8) : (chosen enc bytes).2.length ≤ bytes.length := by
  unfold chosen
  cases enc with
  | some e => simp
  | none => simp only; unfold detect; split <;> simp <;> omega

/-- Outcome of reading a whole input. -/
theorem readAll_spec (o : Oracle) (enc : Option Enc) (bytes : List UInt8) (hsize : bytes.length < maxFileSize)
    {good : List Nat} {tail : List UInt8} (hs : Split (chosen enc bytes).1 (chosen enc bytes).2 good tail) :
    (∃ er, readAll o enc bytes = .error er ∧ InputErr o er) ∨
    readAll o enc bytes =
      if tail = [] then .ok good
      else .error (errAt (chosen enc bytes).1 (bytes.length - tail.length) tail) := by
  have hrel := rel_init enc bytes good tail hsize hs
  have hlen := split_length hs
  have hlen2 := chosen_length enc bytes
  have hz : ∀ c ∈ good, c ≠ 0 := fun c hc => permitted_ne_zero (hs.perm c hc)
  unfold readAll
  by_cases ht : tail = []
  · obtain ⟨i', hi⟩ := drain_good (bytes.length + 1) good 0 (by omega) (by omega) hz
    have hin : inputOf enc bytes good tail = { cs := good ++ [0], avail := 0, bad := none } := by
      simp [inputOf, ht]
    rw [hin] at hrel
    rcases runR_refines o (drain (bytes.length + 1)) _ _ hrel (by rw [hi]; simp) with
      ⟨er, h1, h2⟩ | ⟨e, h1, h2⟩ | ⟨a, i2, st', h1, h2, h3⟩
    · left
      rw [h1]
      rcases h2 with h2 | h2
      · exact ⟨er, rfl, h2⟩
      · cases h2
    · rw [hi] at h1; cases h1
    · right
      rw [hi] at h1
      cases h1
      rw [h2, if_pos ht]
  · have hi := drain_bad (bytes.length + 1) good (errAt (chosen enc bytes).1 (bytes.length - tail.length) tail) 0
      (by omega) (by omega) hz
    have hin : inputOf enc bytes good tail =
        { cs := good, avail := 0, bad := some (errAt (chosen enc bytes).1 (bytes.length - tail.length) tail) } := by
      simp [inputOf, ht]
    rw [hin] at hrel
    have hne : errAt (chosen enc bytes).1 (bytes.length - tail.length) tail ≠ .ub := by
      unfold errAt; split <;> simp
    rcases runR_refines o (drain (bytes.length + 1)) _ _ hrel (by rw [hi]; simpa using hne) with
      ⟨er, h1, h2⟩ | ⟨e, h1, h2⟩ | ⟨a, i2, st', h1, h2, h3⟩
    · rw [h1]
      rcases h2 with h2 | h2
      · left; exact ⟨er, rfl, h2⟩
      · right; rw [if_neg ht]; cases h2; rfl
    · right
      rw [hi] at h1
      cases h1
      rw [h2, if_neg ht]
    · rw [hi] at h1; cases h1

theorem errAt_reported {e : Enc} {off : Nat} {tail : List UInt8} (h : tail ≠ []) :
    ∃ p o v, errAt e off tail = .reader p o v := by
  unfold errAt
  cases hs : step e true off tail with
  | err p o v => exact ⟨p, o, v, rfl⟩
  | incomplete => exact absurd hs (step_eof h)
  | char v w => exact ⟨_, _, _, rfl⟩

/-! ### Reachable reader states -/

theorem reach_stream {o : Oracle} {enc : Option Enc} {bytes : List UInt8} (hsize : bytes.length < maxFileSize)
    {good : List Nat} {tail : List UInt8} (hs : Split (chosen enc bytes).1 (chosen enc bytes).2 good tail)
    {k : Nat} {st : RS} (h : Reach o enc bytes k st) :
    k ≤ (inputOf enc bytes good tail).cs.length ∧
      Stream st ((inputOf enc bytes good tail).cs.drop k) (inputOf enc bytes good tail).bad := by
  induction h with
  | init => exact ⟨by omega, by simpa using (rel_init enc bytes good tail hsize hs).stream⟩
  | cache n hn _ hok ih =>
    refine ⟨ih.1, ?_⟩
    rcases cache_spec o _ _ _ n hn ih.2 with ⟨st', c1, c2, _⟩ | ⟨er, c1, _⟩
    · rw [hok] at c1; cases c1; exact c2
    · rw [hok] at c1; cases c1
  | @skip k st st' _ hok ih =>
    obtain ⟨hk, hst⟩ := ih
    obtain ⟨cur, fut, hr, hcs⟩ := stream_prefix hst
    have hu : 0 < st.unread := by
      unfold skipR at hok
      split at hok
      · cases hok
      · simp only at hok
        split at hok
        · cases hok
        · omega
    have hlt : k < (inputOf enc bytes good tail).cs.length := by
      have := congrArg List.length hcs
      rw [List.length_drop, List.length_append, ← hr.unread] at this
      omega
    rw [List.drop_eq_getElem_cons hlt] at hst
    obtain ⟨st2, k1, k2, _⟩ := stream_skip hst hu
    rw [hok] at k1; cases k1
    exact ⟨by omega, k2⟩

end LibYaml
