import Verif.Proofs.Reread
import Verif.Props.Reformat
import Verif.Props.DumpSession

/-!
# C69: what is reformatted is read back

The program of C68 with the writer of the library as output handler. Its output is parsed, or loaded, again.
-/

namespace LibYaml

open Spec

/-! ### Parsed events can be emitted -/

/-- The tokens that the parser gets from the scanner. -/
theorem fed_good {o : Oracle} {enc : Option Enc} {bytes : List UInt8} (hsize : bytes.length < maxFileSize) {f : Nat} (hf : bytes.length + 3 < f)
    {toks : List Token} {y : Scanner × RS} (h : Feeds (scannerSrc o f) ((scanStart enc bytes).scanner, (scanStart enc bytes).input) toks y) :
    ∀ t ∈ toks, GoodTok t.data := by
  obtain ⟨D, E, rfl, h2, h3, _⟩ := C56_tokens_are_those_of_the_scanner o enc bytes hsize hf h
  intro t ht
  rcases List.mem_append.mp ht with hD | hE
  · obtain ⟨good, tail, hs⟩ := exists_split (chosen enc bytes).1 (chosen enc bytes).2
    obtain ⟨en, ls, u, lv, key, hl, hp, _⟩ := C58_tokens_of_the_layout o enc bytes hsize f hf D.length good tail hs D [] (by rw [h2]; simp) (by simp)
    rcases List.mem_cons.mp (hp.subset hD) with rfl | ht
    · trivial
    · refine layout_good hl (Chars.append (fun c hc => permitted_char (hs.perm c hc)) ?_) t ht
      split
      · exact .cons (uchar_small (by omega)) .nil
      · exact .nil
  · rw [h3 t hE]
    trivial

/-- What the events of a whole stream are like. -/
theorem parsed_good {o : Oracle} {n : Int} {enc : Option Enc} {bytes : List UInt8} (hsize : bytes.length < maxFileSize) {f fuel k : Nat}
    (hf : bytes.length + 3 < f) {os : List POut} {p : Parser (Scanner × RS)} (h : parseBytes o n f fuel enc bytes k = .ok (os, p))
    (hend : .streamEnd ∈ events os) : (∀ e ∈ events os, GoodEv e) ∧ (Vanishes (events os) → ∃ x ∈ events os, tagOf x = some []) := by
  obtain ⟨toks, y, h1, h2⟩ := C56_grammar o n fuel enc bytes hsize hf k h hend
  have h3 := fed_good hsize hf h1
  have h4 : ∀ d ∈ toks.map Token.data, GoodTok d := by
    intro d hd
    obtain ⟨t, ht, rfl⟩ := List.mem_map.mp hd
    exact h3 t ht
  exact ⟨stream_good h2 h4, stream_stays h2 h4⟩

/-- C69. Let the parser deliver a whole stream of events. If the events are `Keepable`, they meet all conditions of the round trip through the emitter
(`C50_bytes_partial`), with every setting: nothing else that the parser can deliver gets in the way. -/
theorem C69_parsed_events (o : Oracle) (n : Int) (enc : Option Enc) (bytes : List UInt8) (hsize : bytes.length < maxFileSize) {f fuel k : Nat}
    (hf : bytes.length + 3 < f) (hfuel : 4 * bytes.length + 7 < fuel) {os : List POut} {p : Parser (Scanner × RS)}
    (h : parseBytes o n f fuel enc bytes k = .ok (os, p)) (hend : .streamEnd ∈ events os) (hk : Keepable (events os)) (canonical : Bool) :
    Readable canonical (events os) := by
  obtain ⟨os', p', h1, _, _, h2, _⟩ := C56_parsing_is_total o n enc bytes hsize hf hfuel k
  rw [h] at h1
  cases h1
  obtain ⟨h3, h4⟩ := parsed_good hsize hf h hend
  exact keepable_readable (h2 hend).1 h3 h4 hk canonical

/-! ### The program on values -/

theorem node_open {s : Sym} {w : List EvData} (h : G s w) : EvData.streamEnd ∉ w := by
  induction h <;> simp_all

theorem gdocs_noEnd {w : List EvData} (h : GDocs w) : EvData.streamEnd ∉ w := by
  induction h with
  | nil => exact nofun
  | cons hd _ ih =>
    obtain ⟨v, ts, i, n, j, hn, rfl⟩ := hd
    simp [ih, node_open hn]

/-- The stream ends once. -/
theorem gstream_end {w a b : List EvData} (h : GStream w) (he : w = a ++ .streamEnd :: b) : b = [] := by
  obtain ⟨enc, ds, hd, rfl⟩ := h
  have hn := gdocs_noEnd hd
  rcases List.append_eq_append_iff.mp he with ⟨c, h1, h2⟩ | ⟨c, h1, h2⟩
  · cases c with
    | nil => injection h2 with _ h2; exact h2.symm
    | cons y c => simp at h2
  · cases c with
    | nil => injection h2
    | cons y c =>
      injection h2 with h2 h3
      subst h2
      cases a with
      | nil => injection h1 with h1 _; cases h1
      | cons z a =>
        injection h1 with _ h1
        exact absurd (by rw [h1]; simp) hn

theorem done_feed {ω : Type} {W : OutH ω} {os : List POut} {s : Emitter} {w w' : ω} (h : reformatted W os s w = (.done, w'))
    (he : ∀ a b, events os = a ++ .streamEnd :: b → b = []) : ∃ s', feedEvs (emitTo (outEnv W)) (events os) (s, w) = (true, (s', w')) := by
  induction os generalizing s w with
  | nil => cases h
  | cons x os ih =>
    cases x with
    | failed => cases h
    | noEvent => cases h
    | event ev =>
      rw [reformatted] at h
      show ∃ s', feedEvs (emitTo (outEnv W)) (ev.data :: events os) (s, w) = _
      simp only [feedEvs, emitTo, Res.exec]
      cases hx : execOps (outEnv W) (emit ev.data s).ops w with
      | mk r w1 =>
        rw [hx] at h
        cases r with
        | some t => cases h
        | none =>
          simp only at h ⊢
          cases hv : (emit ev.data s).val with
          | error e => rw [hv] at h; cases h
          | ok u =>
            rw [hv] at h
            simp only at h ⊢
            by_cases hd : ev.data = .streamEnd
            · rw [if_pos hd] at h
              cases h
              have : events os = [] := he [] (events os) (by simp [events, hd])
              rw [this]
              exact ⟨_, rfl⟩
            · rw [if_neg hd] at h
              exact ih h fun a b hab => he (ev.data :: a) b (by simp [events, hab])

theorem quiet_events {os : List POut} (h : ∀ v ∈ os, v = .noEvent) : events os = [] := by
  induction os with
  | nil => rfl
  | cons x os ih =>
    cases h x (.head _)
    exact ih fun v hv => h v (.tail _ hv)

theorem feed_done {σ ω : Type} {S : TokSrc σ} {maxLevel : Int} {fuel n : Nat} {q q' : Parser σ} {W : OutH ω} {os : List POut} {s s' : Emitter} {w w' : ω}
    (hp : parseN S maxLevel fuel n q = .ok (os, q')) (hn : .streamEnd ∈ events os)
    (h : feedEvs (emitTo (outEnv W)) (events os) (s, w) = (true, (s', w'))) (he : ∀ a b, events os = a ++ .streamEnd :: b → b = []) :
    reformatted W os s w = (.done, w') := by
  induction n generalizing os s w q with
  | zero => cases hp; cases hn
  | succ n ih =>
    unfold parseN at hp
    cases h1 : parse S maxLevel fuel q with
    | error e => rw [h1] at hp; cases hp
    | ok r =>
      obtain ⟨x, q1⟩ := r
      rw [h1] at hp
      simp only at hp
      cases h2 : parseN S maxLevel fuel n q1 with
      | error e => rw [h2] at hp; cases hp
      | ok r =>
        obtain ⟨os, q2⟩ := r
        rw [h2] at hp
        simp only [Except.ok.injEq, Prod.mk.injEq] at hp
        obtain ⟨rfl, rfl⟩ := hp
        cases x with
        | failed =>
          have := (C27_errors_are_final S maxLevel fuel h1).2 n
          rw [h2] at this
          cases this
          have hq := quiet_events (os := List.replicate n .noEvent) fun v hv => List.eq_of_mem_replicate hv
          replace hn : .streamEnd ∈ events (List.replicate n .noEvent) := hn
          rw [hq] at hn
          cases hn
        | noEvent =>
          have hq := quiet_events (parse_over h1 h2)
          replace hn : .streamEnd ∈ events os := hn
          rw [hq] at hn
          cases hn
        | event ev =>
          rw [reformatted]
          replace h : feedEvs (emitTo (outEnv W)) (ev.data :: events os) (s, w) = (true, (s', w')) := h
          simp only [feedEvs, emitTo, Res.exec] at h
          cases hx : execOps (outEnv W) (emit ev.data s).ops w with
          | mk r w1 =>
            rw [hx] at h
            cases r with
            | some t => cases h
            | none =>
              simp only at h ⊢
              cases hv : (emit ev.data s).val with
              | error e => rw [hv] at h; cases h
              | ok u =>
                rw [hv] at h
                simp only at h ⊢
                by_cases hd : ev.data = .streamEnd
                · have : events os = [] := he [] (events os) (by simp [events, hd])
                  rw [this] at h
                  cases h
                  rw [if_pos hd]
                · rw [if_neg hd]
                  refine ih h2 ?_ h fun a b hab => he (ev.data :: a) b (by simp [events, hab])
                  rcases List.mem_cons.mp (show _ ∈ ev.data :: events os from hn) with h | h
                  · exact absurd h.symm hd
                  · exact h

theorem done_ends {ω : Type} {W : OutH ω} {os : List POut} {s : Emitter} {w w' : ω}
    (h : reformatted W os s w = (.done, w')) : .streamEnd ∈ events os := by
  induction os generalizing s w with
  | nil => cases h
  | cons x os ih =>
    cases x with
    | failed => cases h
    | noEvent => cases h
    | event ev =>
      rw [reformatted] at h
      show _ ∈ ev.data :: events os
      split at h
      · cases h
      · split at h
        · cases h
        · split at h
          · rename_i hd
            rw [hd]
            exact .head _
          · exact .tail _ (ih h)

/-- The encoding of a whole stream that was read without errors of the read handler. -/
theorem stream_encoding {o : Oracle} (ho : NoFail o) {n : Int} {enc : Option Enc} {bytes : List UInt8} (hlen : bytes.length + 1 < maxInt) {f fuel k : Nat}
    (hf : bytes.length + 3 < f) {os : List POut} {p : Parser (Scanner × RS)} (h : parseBytes o n f fuel enc bytes k = .ok (os, p))
    (hend : .streamEnd ∈ events os) : ∃ ds, events os = .streamStart (some (chosen enc bytes).1) :: ds := by
  obtain ⟨good, tail, hs⟩ := exists_split (chosen enc bytes).1 (chosen enc bytes).2
  have h1 := split_length hs
  have h2 := chosen_length enc bytes
  obtain ⟨_, ls, u, lv, key, _, _, hm⟩ := C59_sound o ho n enc bytes (Nat.lt_trans (by omega) (by decide : maxInt < maxFileSize)) hf good tail hs (by omega) k h hend
  generalize events os = w at hm
  generalize ht : TokData.streamStart (chosen enc bytes).1 :: _ = t at hm
  cases hm with
  | explicit => cases ht; exact ⟨_, rfl⟩
  | implicit =>
    injection ht with ht
    cases ht
    exact ⟨_, rfl⟩

section
variable {σ : Type} (hd : Handler σ) (I : σ → Prop) (hI : Safe hd I) (x : σ) (hx : I x) (s : Emitter) (hs : Fresh s)
  (o : Oracle) (ho : NoFail o) (maxLevel : Int) (enc : Option Enc) (bytes : List UInt8) (hlen : bytes.length + 1 < maxInt)
  (f fuel n : Nat) (hf : bytes.length + 3 < f) (hfuel : 4 * bytes.length + 7 < fuel) (hn : 16 * bytes.length + 28 < n)

/-- The reformatter for these bytes, with the writer of the library; it uses the encoding that the emitter is set to, or the encoding of the input. -/
def reformatBytes : HM (Option (REnd × HPar (MemSrc (Scanner × RS)) × (Except Fail (WS σ) × Unit))) :=
  reformat (byteSrc o f enc bytes) (writerOut hd) maxLevel fuel n s
    (.ok (WS.init ((s.encoding.or (some (chosen enc bytes).1)).getD .utf8) x), ())

include hI hx hs ho hlen hf hfuel hn in
/-- What the program has written when it is done. -/
theorem C69_events_survive {h h' : Heap} (hh : h.Fresh) {p : HPar (MemSrc (Scanner × RS))} {w' : Except Fail (WS σ) × Unit}
    (hr : reformatBytes hd x s o maxLevel enc bytes f fuel n h = .ok (some (.done, p, w'), h'))
    {os : List POut} {q : Parser (Scanner × RS)} (hp : parseBytes o maxLevel f fuel enc bytes n = .ok (os, q)) (hkeep : Keepable (events os)) :
    h'.mem = h.mem ∧ .streamEnd ∈ events os ∧ ∃ st, w'.1 = .ok st ∧
      ∀ (o' : Oracle) (n' : Int) (f' fuel' : Nat), NoFail o' → st.trace.flatten.length < maxInt → st.trace.flatten.length + 3 < f' →
        4 * st.trace.flatten.length + 7 < fuel' → 2 ≤ n' → n' ≤ maxInt → (∀ k, Deep k (events os) → (k : Int) < n') →
        ∃ (es : List Event) (p' : _), parseBytes o' n' f' fuel' none st.trace.flatten (events os).length = .ok (es.map .event, p') ∧
          p'.error = none ∧ p'.st.state = .done ∧ List.Forall₂ Alike (events os) (es.map Event.data) := by
  have hsize : bytes.length < maxFileSize := Nat.lt_trans (Nat.lt_of_succ_lt hlen) (by decide)
  obtain ⟨r, h1, vs, v, k1, k2, _, k4, _⟩ := C68_reformat o (writerOut hd) (.ok (WS.init ((s.encoding.or (some (chosen enc bytes).1)).getD .utf8) x), ()) s hs maxLevel enc bytes
    hsize f fuel n hf hfuel hn h hh
  rw [show reformat _ _ _ _ _ _ _ _ = _ from hr] at k1
  cases k1
  rcases C68_output o (writerOut hd) _ s hs maxLevel enc bytes hsize f fuel n hf hfuel hn h hh hr with hst | ⟨vs', v', k5, k6, _⟩
  · rcases hst with ⟨hst, _⟩ | hst <;> cases hst
  · rw [hp] at k5
    cases k5
    obtain ⟨os', q', g1, _, _, g2, _⟩ := C56_parsing_is_total o maxLevel enc bytes hsize hf hfuel n
    rw [hp] at g1
    cases g1
    have hend : .streamEnd ∈ events os := done_ends k6
    refine ⟨k2, hend, ?_⟩
    obtain ⟨s', hfeed⟩ := done_feed k6 (fun a b hab => gstream_end (g2 hend).1 hab)
    rw [writerOut_env] at hfeed
    obtain ⟨_, ws, m', hout, hw⟩ := feed_written hfeed
    obtain ⟨ds, hds⟩ := stream_encoding ho hlen hf hp hend
    obtain ⟨_, hb⟩ := C50_bytes_partial hs (C69_parsed_events o maxLevel enc bytes hsize hf hfuel hp hend hkeep s.canonical)
    obtain ⟨b, st, j1, j2⟩ := hb _ _ hds hd I hI x hx
    rw [hw] at j1
    cases j1
    injection hout with _ hout
    exact ⟨ws, by rw [hout], fun o' n' f' fuel' => j2 rfl o' n' f' fuel'⟩

include hI hx hs ho hlen hf hfuel hn in
/-- C69. Let the program be done, and let the input load without error. Then the output, read in pieces of any size, loads: one document for each document of the
input, the same but for styles and positions. -/
theorem C69_documents_survive {h h' : Heap} (hh : h.Fresh) {p : HPar (MemSrc (Scanner × RS))} {w' : Except Fail (WS σ) × Unit}
    (hr : reformatBytes hd x s o maxLevel enc bytes f fuel n h = .ok (some (.done, p, w'), h'))
    {os : List POut} {q : Parser (Scanner × RS)} (hp : parseBytes o maxLevel f fuel enc bytes n = .ok (os, q)) (hkeep : Keepable (events os))
    {room0 : Nat → Bool} {fuel0 m0 k0 : Nat} {ls : List LOut} {r : Parser (Scanner × RS)}
    (hload : loadBytes room0 o maxLevel f fuel0 m0 enc bytes k0 = .ok (ls, r)) (hfail : .failed ∉ ls) (hempty : .doc Doc.empty ∈ ls) :
    ∃ ds j st, ls = ds.map .doc ++ List.replicate (j + 1) (.doc Doc.empty) ∧ w'.1 = .ok st ∧
      ∀ (room : Nat → Bool) (o' : Oracle) (n' : Int) (f' fuel' m' : Nat), NoFail o' → st.trace.flatten.length < maxInt → st.trace.flatten.length + 3 < f' →
        4 * st.trace.flatten.length + 7 < fuel' → 16 * st.trace.flatten.length + 28 < m' → 2 ≤ n' → n' ≤ maxInt →
        (∀ k, Deep k (events os) → (k : Int) < n') → (∀ k, k < (events os).length → room k = true) →
        ∃ ds' p', loadBytes room o' n' f' fuel' m' none st.trace.flatten (ds.length + 1) = .ok (ds'.map .doc ++ [.doc Doc.empty], p') ∧
          List.Forall₂ SameLoaded ds ds' := by
  have hsize : bytes.length < maxFileSize := Nat.lt_trans (Nat.lt_of_succ_lt hlen) (by decide)
  obtain ⟨_, hend, st, hst, hback⟩ := C69_events_survive hd I hI x hx s hs o ho maxLevel enc bytes hlen f fuel n hf hfuel hn hh hr hp hkeep
  obtain ⟨good, tail, hsp⟩ := exists_split (chosen enc bytes).1 (chosen enc bytes).2
  have hl1 := split_length hsp
  have hl2 := chosen_length enc bytes
  obtain ⟨_, ws, ds, j, hls, ⟨⟨e, hm1⟩, _⟩, hrep⟩ := C60_sound room0 o ho maxLevel enc bytes hsize hf good tail hsp (by omega) k0 hload hfail hempty
  obtain ⟨_, hm2⟩ := C59_sound o ho maxLevel enc bytes hsize hf good tail hsp (by omega) n hp hend
  have hev := C59_one_meaning hm2 hm1
  have hgood := keepable_honest (parsed_good hsize hf hp hend).1 hkeep
  rw [hev] at hback hgood ⊢
  refine ⟨ds, j, st, hls, hst, fun room o' n' f' fuel' m' ho' hlen' hf' hfuel' hm' hn2 hn3 hdeep hroom => ?_⟩
  obtain ⟨es, p', b1, _, b3, b4⟩ := hback o' n' f' fuel' ho' hlen' hf' hfuel' hn2 hn3 hdeep
  rw [List.forall₂_map_right_iff] at b4
  obtain ⟨e1, e2, rfl, c1, c2⟩ := forall2_split b4
  cases c1 with
  | @cons _ se _ e1 c1 c3 =>
    cases c2 with
    | @cons _ ee _ _ c2 c4 =>
      cases c4
      obtain ⟨wss, rfl, c5⟩ := alike_reps hrep (fun v hv => hgood v (by simp [hv])) (by rw [List.forall₂_map_right_iff]; exact c3)
      have hlenE : (EvData.streamStart e :: ws.flatten ++ [(EvData.streamEnd)]).length = (se :: (wss.flatten ++ [ee])).length := by
        have := b4.length_eq
        simpa using this
      rw [hlenE] at b1 hroom
      have hdl := c5.length_eq
      obtain ⟨ds', p2, d1, d2⟩ := load_known room o' n' none st.trace.flatten (Nat.lt_trans hlen' (by decide)) hf' hfuel' hm' b1 b3
        (by cases hse : se.data with
            | streamStart e' => exact ⟨e', rfl⟩
            | _ => rw [hse] at c1; cases c1)
        (by cases hse : ee.data with
            | streamEnd => rfl
            | _ => rw [hse] at c2; cases c2)
        (fun w hw => by obtain ⟨d, _, hd, _⟩ := forall2_right c5 hw; exact hd)
        (fun w hw k hk => hroom k (by
          have := (List.sublist_flatten_of_mem hw).length_le
          simp only [List.length_cons, List.length_append]
          omega)) 0
      rw [← hdl] at d1
      exact ⟨ds', p2, d1, forall2_chain c5 d2 fun a b => a.2 _ b⟩

include hs ho hlen hf hfuel hn in
/-- C69. If the parser can read the whole input, its events are `Keepable`, the write handler never fails, and every allocation succeeds, then the program is done,
unless a stack reaches its limit; which one, and where, is what `ReformatLog` says. -/
theorem C69_succeeds (hh' : ∀ s b, ∃ s', hd s b = .ok (true, s')) {h : Heap} (hh : h.Fresh) (hA : ∀ k, h.ok k = true)
    {os : List POut} {q : Parser (Scanner × RS)} (hp : parseBytes o maxLevel f fuel enc bytes n = .ok (os, q)) (hend : .streamEnd ∈ events os)
    (hkeep : Keepable (events os)) :
    ∃ e p w' h', reformatBytes hd x s o maxLevel enc bytes f fuel n h = .ok (some (e, p, w'), h') ∧ (e = .done ∨ Starved (e, p, w')) ∧
      ReformatLog (writerOut hd) True q.error os s (.ok (WS.init ((s.encoding.or (some (chosen enc bytes).1)).getD .utf8) x), ()) (e, p, w') := by
  have hsize : bytes.length < maxFileSize := Nat.lt_trans (Nat.lt_of_succ_lt hlen) (by decide)
  obtain ⟨r, h', vs, v, k1, k2, k3, k4, k7⟩ := C68_reformat o (writerOut hd) (.ok (WS.init ((s.encoding.or (some (chosen enc bytes).1)).getD .utf8) x), ()) s hs maxLevel enc bytes
    hsize f fuel n hf hfuel hn h hh
  cases r with
  | none => exact absurd hA (k3 rfl)
  | some r =>
    obtain ⟨e, p, w'⟩ := r
    rw [hp] at k4
    cases k4
    refine ⟨e, p, w', h', k1, ?_, by rw [← eq_true hA]; exact k7 _ rfl⟩
    rcases C68_output o (writerOut hd) _ s hs maxLevel enc bytes hsize f fuel n hf hfuel hn h hh k1 with hst | ⟨vs', v', k5, k6, _⟩
    · exact .inr hst
    · rw [hp] at k5
      cases k5
      obtain ⟨os', q', g1, _, _, g2, _⟩ := C56_parsing_is_total o maxLevel enc bytes hsize hf hfuel n
      rw [hp] at g1
      cases g1
      obtain ⟨ds, hds⟩ := stream_encoding ho hlen hf hp hend
      obtain ⟨hval, hb⟩ := C50_bytes_partial hs (C69_parsed_events o maxLevel enc bytes hsize hf hfuel hp hend hkeep s.canonical)
      obtain ⟨b, st, j1, _⟩ := hb _ _ hds hd (fun _ => True) (fun s b _ => by obtain ⟨s', hs'⟩ := hh' s b; exact ⟨_, _, hs', trivial⟩) x trivial
      have hbt := runOps_true hh' j1
      subst hbt
      obtain ⟨m', hfeed⟩ := written_feed (mem := fun (m : Unit) => (true, m)) (fun _ => rfl) (m := ()) hval j1
      rw [← writerOut_env] at hfeed
      have := feed_done hp hend hfeed (fun a b hab => gstream_end (g2 hend).1 hab)
      rw [this] at k6
      cases k6
      exact .inl rfl

end

/-! ### What does not survive -/

/-- The events of the input, how the program ends, and the events of what it has written. -/
def demoAgain (s : Emitter) (bytes : List UInt8) : Option (List EvData × DemoEnd × List EvData) :=
  match reformat (byteSrc (fun _ => some 1) (bytes.length + 4) none bytes) demoOut 1000 (4 * bytes.length + 8) (16 * bytes.length + 29) s ([], 1000) (demoHeap 1000) with
  | .ok (some (e, _, w), _) => some (evs bytes, .of e, evs (w.1.map fun c => UInt8.ofNat c))
  | _ => none
where
  evs (bytes : List UInt8) : List EvData :=
    match parseBytes (fun _ => some 1) 1000 (bytes.length + 4) (4 * bytes.length + 8) none bytes (16 * bytes.length + 29) with
    | .ok (os, _) => events os
    | .error _ => []

/-- The events of a stream with one scalar. -/
def demoScalar (dirs : List TagDir) (i : Bool) (t : Option Text) (v : Text) (plain quoted : Bool) (st : ScalarStyle) : List EvData :=
  [.streamStart (some .utf8), .documentStart none dirs i, .scalar none t v plain quoted st, .documentEnd true, .streamEnd]

/-- C69, why `Keepable` is needed. Each of these inputs parses to its end. `%TAG !e! %00` and the tag `!<%00>` are refused by the emitter; `!a%2Cb` is written as
`!a,b`, which does not parse; with the width 8, the folded lines `a` and ` bbbbbbbb c` come back as the three lines `a`, ` bbbbbbbb` and `c`. -/
theorem C69_violated :
    (demoAgain {} [37, 84, 65, 71, 32, 33, 101, 33, 32, 37, 48, 48, 10, 45, 45, 45, 32, 97, 10]).map (fun r => (r.1, r.2.1)) =
      some (demoScalar [⟨lit ['!', 'e', '!'], []⟩] false none (lit ['a']) true false .plain, .refused) ∧
    (demoAgain {} [33, 60, 37, 48, 48, 62, 32, 120, 10]).map (fun r => (r.1, r.2.1)) =
      some (demoScalar [] true (some []) (lit ['x']) false false .plain, .refused) ∧
    demoAgain {} [33, 97, 37, 50, 67, 98, 32, 120, 10] =
      some (demoScalar [] true (some (lit ['!', 'a', ',', 'b'])) (lit ['x']) false false .plain, .done, [.streamStart (some .utf8)]) ∧
    demoAgain { bestWidth := 8 } [62, 45, 10, 32, 97, 10, 32, 32, 98, 98, 98, 98, 98, 98, 98, 98, 32, 99, 10] =
      some (demoScalar [] true none (lit ['a', '\n', ' ', 'b', 'b', 'b', 'b', 'b', 'b', 'b', 'b', ' ', 'c']) false true .folded, .done,
        demoScalar [] true none (lit ['a', '\n', ' ', 'b', 'b', 'b', 'b', 'b', 'b', 'b', 'b', '\n', 'c']) false true .folded) := by
  refine ⟨?_, ?_, ?_, ?_⟩ <;> decide +kernel

/-! ### What survives -/

/-- The events of `- !k >` with the lines `a` and ` b`. -/
def demoKept : List EvData :=
  [.streamStart (some .utf8), .documentStart none [] true, .sequenceStart none none true .block, .scalar none (some (lit ['!', 'k'])) (lit ['a', '\n', ' ', 'b', '\n']) false false .folded,
   .sequenceEnd, .documentEnd true, .streamEnd]

/- The input and the output have these events. -/
example : demoAgain { bestWidth := 8 } [45, 32, 33, 107, 32, 62, 10, 32, 97, 10, 32, 32, 98, 10] = some (demoKept, .done, demoKept) := by decide +kernel

example : Keepable demoKept := by
  have hb : ¬ FoldableIndented (lit ['a', '\n', ' ', 'b', '\n']) := by
    rintro ⟨b, l, r, hb, hl, hr, h | ⟨a, c, hc, h⟩⟩
    · simp only [lit, List.map_cons, List.cons.injEq] at h
      have : ('a' : Char).toNat = 97 := rfl
      omega
    · unfold EndsLines at hc
      rcases a with _ | ⟨_, _ | ⟨_, _ | ⟨_, _ | ⟨_, _ | ⟨_, _⟩⟩⟩⟩⟩ <;> rcases l with _ | ⟨_, _ | ⟨_, _ | ⟨_, _⟩⟩⟩ <;> simp [lit] at h
      all_goals omega
  refine ⟨?_, ?_, ?_, ?_⟩
  · intro v ts i h
    simp [demoKept] at h
    rcases h with ⟨_, rfl, _⟩
    nofun
  · intro e h
    simp only [demoKept, List.mem_cons, List.not_mem_nil, or_false] at h
    rcases h with rfl | rfl | rfl | rfl | rfl | rfl | rfl <;> simp [tagOf, lit]
  · rintro T e x ⟨a, v, i, r, h, hr⟩ hx
    have := mem_listUnder hr (a := a) (cur := [])
    rw [← h] at this
    simp only [demoKept, listUnder, List.map_nil, List.nil_append, List.map_cons, List.cons_append, List.mem_cons, Prod.mk.injEq, List.not_mem_nil, or_false] at this
    rcases this with ⟨rfl, rfl⟩ | ⟨rfl, rfl⟩ | ⟨rfl, rfl⟩ | ⟨rfl, rfl⟩ | ⟨rfl, rfl⟩ <;> simp only [tagOf, Option.some.injEq, reduceCtorEq] at hx
    subst hx
    simp [predeclared, lit]
  · intro a t v p q h
    simp [demoKept] at h
    rcases h with ⟨_, _, rfl, _⟩
    exact hb

end LibYaml
