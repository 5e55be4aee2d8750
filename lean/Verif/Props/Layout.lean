import Verif.Proofs.LexRun
import Verif.Proofs.LexDet
import Verif.Proofs.LexComplete
import Verif.Props.Scanner

/-!
# C55, C58: from text to tokens

`Spec/Layout.lean`: which sequences of lexemes a text has (`Lexed`), and which tokens they give (`layout`).
-/

namespace LibYaml

open Spec

variable {T : List Nat} {ls : List Lx} {u : List Nat} {lv : Nat} {key : Bool}

theorem tokens_inj {a b : List Token} {r r' : List ScanOut} (hr : ∀ t, .token t ∉ r) (hr' : ∀ t, .token t ∉ r')
    (h : a.map ScanOut.token ++ r = b.map ScanOut.token ++ r') : a = b := by
  induction a generalizing b with
  | nil =>
    cases b with
    | nil => rfl
    | cons y b =>
      refine absurd ?_ (hr y)
      rw [show r = _ from h]; simp
  | cons x a ih =>
    cases b with
    | nil =>
      refine absurd ?_ (hr' x)
      rw [show r' = _ from h.symm]; simp
    | cons y b =>
      simp at h
      rw [h.1, ih (by simpa using h.2)]

/-- The lexemes end where the text ends. -/
theorem Spec.Lexed.finished (h : Lexed T ls u lv key) (hl : ∃ l, ls.getLast? = some l ∧ l.data = .streamEnd) : ∃ r, T = u ++ 0 :: r := by
  cases h with
  | start => obtain ⟨l, h, _⟩ := hl; cases h
  | @next ls u lv key w v x mid rest key' kd line ls' d _ _ hT _ hx _ _ _ _ =>
    obtain ⟨l, h, hd⟩ := hl
    simp at h
    subst h
    have hd : d = .streamEnd := hd
    subst hd
    generalize hv : v ++ rest = t at hx hT
    cases hx with
    | streamEnd r =>
      have : v = [] := by
        have := congrArg List.length hv
        simp at this
        exact this
      subst this
      exact ⟨r, by rw [hT]; simp⟩

theorem layout_last {cols : List Nat} : (layout cols ls).getLast? = ls.getLast?.map Lx.token := by
  induction ls generalizing cols with
  | nil => rfl
  | cons l ls ih =>
    cases ls with
    | nil => simp [layout, Lx.body]
    | cons l' ls =>
      have := ih (cols := l.leaves (l.within cols))
      rw [layout, List.getLast?_append, this, List.getLast?_cons_cons, List.getLast?_cons]
      simp

/-- **C55, C58**: in every run, the tokens delivered are the beginning of the tokens of the layout of the lexemes of the text; if STREAM-END
has been delivered, they are all of them, and the lexemes and the space between them are the whole text. -/
theorem C58_tokens_of_the_layout (o : Oracle) (enc : Option Enc) (bytes : List UInt8) (hsize : bytes.length < maxFileSize) (f : Nat)
    (hf : bytes.length + 3 < f) (k : Nat) (good : List Nat) (tail : List UInt8) (hs : Split (chosen enc bytes).1 (chosen enc bytes).2 good tail)
    (D : List Token) (rest : List ScanOut) (hrun : (scanRun o f (scanStart enc bytes) k).1 = D.map .token ++ rest) (hrest : ∀ t, .token t ∉ rest) :
    ∃ en ls u lv key, Lexed (good ++ if tail = [] then [0] else []) ls u lv key ∧
      D <+: { data := .streamStart en, start := {}, stop := {} } :: layout [] ls ∧
      (Complete D → D = { data := .streamStart en, start := {}, stop := {} } :: layout [] ls ∧ tail = [] ∧ u = good ∧
        ∃ l, ls.getLast? = some l ∧ l.data = .streamEnd) := by
  have hnot : ∀ (i : In) (e : Option Fail) (s : Scanner) (T : List Nat), Next T e D s i → ¬ Complete D := by
    intro i e s T next ⟨body, t, h1, _, h3⟩
    rcases next_opened next with rfl | ⟨x, r, en, rfl, g1, g2⟩
    · simp at h1
    · have ht : t ∈ x :: r := by rw [h1]; simp
      rcases List.mem_cons.mp ht with rfl | ht
      · rw [h3] at g1; cases g1
      · have := g2 t ht; simp [isStreamTok, h3] at this
  have hpre : (∃ i e s T, Next T e D s i) → LexPrefix (inputOf enc bytes good tail).cs D →
      ∃ en ls u lv key, Lexed (good ++ if tail = [] then [0] else []) ls u lv key ∧
      D <+: { data := .streamStart en, start := {}, stop := {} } :: layout [] ls ∧
      (Complete D → D = { data := .streamStart en, start := {}, stop := {} } :: layout [] ls ∧ tail = [] ∧ u = good ∧
        ∃ l, ls.getLast? = some l ∧ l.data = .streamEnd) := by
    rintro ⟨i, e, s, T, next⟩ ⟨S, ls, u, lv, key, ⟨en, rfl⟩, h1, h2⟩
    exact ⟨en, ls, u, lv, key, h1, h2, fun hc => absurd hc (hnot _ _ _ _ next)⟩
  have hr0 : ∀ j (t : Token), ScanOut.token t ∉ List.replicate j .nothing := by
    intro j t h; simp [List.mem_replicate] at h
  have hr1 : ∀ j (t : Token), ScanOut.token t ∉ .failed :: List.replicate j .nothing := by
    intro j t h; simp [List.mem_replicate] at h
  cases lex_calls (o := o) hsize hs hf k with
  | going A i hout hend herr next rel bad =>
    have := tokens_inj (a := A) (r := []) (by simp) hrest (by rw [← hrun, hout]; simp)
    subst this
    refine hpre ?_ next.start
    cases next with
    | fresh hD h => exact ⟨_, _, _, _, .fresh hD h⟩
    | running h _ => exact ⟨_, _, _, _, .running h⟩
    | ended h _ => exact ⟨_, none, _, _, .ended h⟩
  | failed A j er hout hend herr start =>
    have := tokens_inj (hr1 j) hrest (by rw [← hrun, hout])
    subst this
    refine hpre ?_ start
    cases scan_inv (o := o) hsize hs hf k with
    | going A' i hout' hend' herr' next rel bad => rw [herr] at herr'; cases herr'
    | ended A' j' hout' hend' herr' _ _ => rw [herr] at herr'; cases herr'
    | failed A' j' er' i' hout' hend' herr' rep next =>
      have := tokens_inj (hr1 _) hrest (by rw [← hrun, hout'])
      subst this
      exact ⟨_, _, _, _, next⟩
  | ended A j hout hend herr whole =>
    have := tokens_inj (hr0 j) hrest (by rw [← hrun, hout])
    subst this
    obtain ⟨S, ls, u, lv, key, ⟨en, rfl⟩, h1, h2⟩ := whole
    have hlast : ∃ l, ls.getLast? = some l ∧ l.data = .streamEnd := by
      cases scan_inv (o := o) hsize hs hf k with
      | going A' i hout' hend' herr' next rel bad => rw [hend] at hend'; cases hend'
      | failed A' j' er' i' hout' hend' herr' rep next => rw [hend] at hend'; cases hend'
      | ended A' j' hout' hend' herr' final _ =>
        have := tokens_inj (hr0 _) (hr0 _) (hout'.symm.trans hout)
        subst this
        obtain ⟨body, t, e1, _, e3⟩ := final_body final
        have := congrArg List.getLast? (h2.symm.trans e1)
        cases ls with
        | nil =>
          simp [layout] at this
          rw [← this] at e3; cases e3
        | cons l ls =>
          rw [List.getLast?_cons, layout_last] at this
          simp at this
          refine ⟨_, List.getLast?_cons, ?_⟩
          rw [← e3, ← this]
          simp [List.getLast?_cons, Lx.token]
    refine ⟨en, ls, u, lv, key, h1, by rw [h2]; exact List.prefix_refl _, fun _ => ⟨h2, ?_⟩⟩
    obtain ⟨r, hr⟩ := Spec.Lexed.finished h1 hlast
    have hz : 0 ∉ good := fun h0 => by
      have := hs.perm 0 h0
      revert this
      decide
    have hr : good ++ (if tail = [] then [0] else []) = u ++ 0 :: r := hr
    split at hr
    · rename_i ht
      refine ⟨ht, ?_, hlast⟩
      rcases List.append_eq_append_iff.mp hr with ⟨w, e1, e2⟩ | ⟨w, e1, e2⟩
      · cases w with
        | nil => simpa using e1
        | cons c w => simp at e2
      · cases w with
        | nil => simpa using e1.symm
        | cons c w =>
          simp at e2
          exact absurd (by rw [e1, ← e2.1]; simp) hz
    · exact absurd (by rw [List.append_nil] at hr; rw [hr]; simp) hz

/-- **C58**: the rules give at most one token stream for a text. -/
theorem C58_one_layout (good : List Nat) {ls1 ls2 : List Lx} {u1 u2 : List Nat} {lv1 lv2 : Nat} {key1 key2 : Bool}
    (h1 : Lexed (good ++ [0]) ls1 u1 lv1 key1) (e1 : ∃ l, ls1.getLast? = some l ∧ l.data = .streamEnd)
    (h2 : Lexed (good ++ [0]) ls2 u2 lv2 key2) (e2 : ∃ l, ls2.getLast? = some l ∧ l.data = .streamEnd) :
    ls1 = ls2 ∧ layout [] ls1 = layout [] ls2 := by
  obtain ⟨l1, g1, d1⟩ := e1
  obtain ⟨l2, g2, d2⟩ := e2
  obtain rfl := Spec.Lexed.whole_unique (by simp) h1 ⟨l1, List.mem_of_getLast? g1, d1⟩ h2 ⟨l2, List.mem_of_getLast? g2, d2⟩
  exact ⟨rfl, rfl⟩

theorem take_pad {α : Type} {a : List α} {x : α} {j k : Nat} (h : k ≤ a.length + j) :
    (a ++ List.replicate j x).take k = (a ++ List.replicate k x).take k := by
  rw [List.take_append, List.take_append, List.take_replicate, List.take_replicate]
  congr 2
  omega

/-- **C58**: if the rules give a token stream for the text of an input, the calls of `yaml_parser_scan` return exactly its tokens, in order, and after
the last of them nothing more; none fails. -/
theorem C58_delivers_the_layout (o : Oracle) (ho : NoFail o) (enc : Option Enc) (bytes : List UInt8) (hsize : bytes.length < maxFileSize) (f : Nat)
    (hf : bytes.length + 3 < f) (good : List Nat) (hs : Split (chosen enc bytes).1 (chosen enc bytes).2 good []) (hlen : good.length + 1 < maxInt)
    (h : Lexed (good ++ [0]) ls u lv key) (hend : ∃ l, ls.getLast? = some l ∧ l.data = .streamEnd) (k : Nat) :
    (scanRun o f (scanStart enc bytes) k).1 =
      (({ data := .streamStart (chosen enc bytes).1, start := {}, stop := {} } :: layout [] ls : List Token).map ScanOut.token ++
        List.replicate k ScanOut.nothing).take k := by
  obtain ⟨l, hl, hd⟩ := hend
  have herr : ∀ n, (scanRun o f (scanStart enc bytes) n).2.error = none :=
    sure_calls ho hsize hs hf ⟨ls, u, lv, key, h, l, List.mem_of_getLast? hl, hd⟩ hlen
  -- after enough calls the stream has ended
  have hended : ∀ n, 4 * bytes.length + 7 ≤ n → (scanRun o f (scanStart enc bytes) n).2.ended = true := by
    intro n hn
    induction n with
    | zero => omega
    | succ n ih =>
      by_cases hn' : n + 1 = 4 * bytes.length + 7
      · rw [hn']
        rcases (C23_scanning_terminates o enc bytes hsize f hf).1 with h | h
        · exact h
        · rw [herr] at h; cases h
      · have := ih (by omega)
        show (scanCall (onReader o) f (scanRun o f (scanStart enc bytes) n).2).2.ended = true
        unfold scanCall
        rw [this, Bool.true_or, if_pos rfl]
        exact this
  have hwhole : ∀ n, 4 * bytes.length + 7 ≤ n → ∃ j, (scanRun o f (scanStart enc bytes) n).1 =
      ({ data := .streamStart (chosen enc bytes).1, start := {}, stop := {} } :: layout [] ls : List Token).map ScanOut.token ++
        List.replicate j ScanOut.nothing := by
    intro n hn
    cases scan_inv (o := o) hsize hs hf n with
    | going D i hout he _ next _ _ => rw [hended n hn] at he; cases he
    | failed D j er i hout he herr' _ next => rw [herr n] at herr'; cases herr'
    | ended D j hout he herr' final _ =>
      have hr0 : ∀ (t : Token), ScanOut.token t ∉ List.replicate j .nothing := by
        intro t h; simp [List.mem_replicate] at h
      obtain ⟨en, ls', u', lv', key', k1, _, k3⟩ := C58_tokens_of_the_layout o enc bytes hsize f hf n good [] hs D _ hout hr0
      obtain ⟨k4, _, _, k5⟩ := k3 (final_body final)
      rw [if_pos rfl] at k1
      obtain ⟨_, e⟩ := C58_one_layout good k1 k5 h ⟨l, hl, hd⟩
      -- the first token
      have hfirst : (scanRun o f (scanStart enc bytes) 1).1 = [.token ⟨.streamStart (chosen enc bytes).1, {}, {}⟩] := by
        have h1 := herr 1
        obtain ⟨m, rfl⟩ : ∃ m, f = m + 2 := ⟨f - 2, by omega⟩
        have hc : scanRun o (m + 2) (scanStart enc bytes) 1 = ([(scanCall (onReader o) (m + 2) (scanStart enc bytes)).1],
            (scanCall (onReader o) (m + 2) (scanStart enc bytes)).2) := rfl
        rw [hc] at h1 ⊢
        unfold scanCall at h1 ⊢
        rw [if_neg (by simp [scanStart])] at h1 ⊢
        rw [show (scanStart enc bytes).scanner = { enc := (chosen enc bytes).1 } from rfl, scan_first] at h1 ⊢
        cases hr : cacheR o (scanStart enc bytes).input 1 with
        | error er => rw [hr] at h1; cases h1
        | ok r => rfl
      rw [scanRun_take (n := n) (by omega), hout, k4] at hfirst
      simp at hfirst
      exact ⟨j, by rw [hout, k4, hfirst, e]⟩
  by_cases hk : 4 * bytes.length + 7 ≤ k
  · obtain ⟨j, hj⟩ := hwhole k hk
    have hl := scanRun_length (o := o) (f := f) (st := scanStart enc bytes) k
    rw [hj, List.length_append, List.length_replicate] at hl
    rw [← take_pad (j := j) (by omega), hj, List.take_of_length_le (by rw [List.length_append, List.length_replicate]; omega)]
  · obtain ⟨j, hj⟩ := hwhole (4 * bytes.length + 7) (Nat.le_refl _)
    have hl := scanRun_length (o := o) (f := f) (st := scanStart enc bytes) (4 * bytes.length + 7)
    rw [hj, List.length_append, List.length_replicate] at hl
    rw [scanRun_take (n := 4 * bytes.length + 7) (by omega), hj, take_pad (by omega)]

/-- Tokens that stand for text of their own: not those that open and close block collections, and not the KEY in front of an implicit key, which is empty. -/
def ofText (t : Token) : Bool :=
  match t.data with
  | .blockSequenceStart | .blockMappingStart | .blockEnd => false
  | .key => t.start != t.stop
  | _ => true

theorem marked_mem {m : Mark} {d : TokData} {ls' : List Lx} {kd : Bool} (h : Marked ls lv m d ls' kd) {x : Lx} (hx : x ∈ ls') : ∃ y ∈ ls, y.token = x.token := by
  cases h with
  | other => exact ⟨x, hx, rfl⟩
  | explicit => exact ⟨x, hx, rfl⟩
  | @implicit pre l post _ hp _ =>
    rcases List.mem_append.mp hx with hx | hx
    · exact ⟨x, by rw [hp.eq]; simp [hx], rfl⟩
    · rcases List.mem_cons.mp hx with rfl | hx
      · exact ⟨l, by rw [hp.eq]; simp, rfl⟩
      · exact ⟨x, by rw [hp.eq]; simp [hx], rfl⟩

theorem Spec.Lexed.ofText (h : Lexed T ls u lv key) : ∀ x ∈ ls, ofText x.token = true := by
  induction h with
  | start => simp
  | @next ls u lv key w v x mid rest key' kd line ls' d _ _ hT _ hx he hm _ _ ih =>
    intro x hmem
    rcases List.mem_append.mp hmem with hmem | hmem
    · obtain ⟨y, hy, he'⟩ := marked_mem hm hmem
      rw [← he']
      exact ih y hy
    · simp at hmem
      subst hmem
      unfold LibYaml.ofText Lx.token
      generalize hv : v ++ rest = t at hx he
      cases hx <;> try rfl
      obtain ⟨c, x', rfl⟩ : ∃ c x', x = c :: x' := by
        cases x with
        | nil =>
          have := congrArg List.length he
          simp at this
        | cons c x' => exact ⟨c, x', rfl⟩
      simp only [Lx.start, stopAt, bne_iff_ne, ne_eq]
      intro hc
      have := congrArg Mark.index hc
      simp [markOf] at this

theorem layout_ofText {cols : List Nat} (h : ∀ x ∈ ls, ofText x.token = true) : (layout cols ls).filter ofText = ls.map Lx.token := by
  induction ls generalizing cols with
  | nil => rfl
  | cons l ls ih =>
    have hb : ∀ m cs, (blockEnds m cs).filter ofText = [] := by
      intro m cs
      simp [blockEnds, List.filter_eq_nil_iff, ofText]
    have ho : ∀ d, l.begins = some d → d = .blockSequenceStart ∨ d = .blockMappingStart := by
      intro d hd
      unfold Lx.begins at hd
      split at hd
      · split at hd
        · simp at hd; exact .inl hd.symm
        · simp at hd; exact .inr hd.symm
        · split at hd
          · cases hd
          · simp at hd; exact .inr hd.symm
        · split at hd
          · simp at hd; exact .inr hd.symm
          · cases hd
      · cases hd
    have hop : ∀ cs, (((l.opening cs).toList.map fun d => ({ data := d, start := l.pos, stop := l.pos } : Token))).filter ofText = [] := by
      intro cs
      rw [List.filter_eq_nil_iff]
      intro t ht
      obtain ⟨d, hd, rfl⟩ := List.mem_map.mp ht
      have hd : l.opening cs = some d := by simpa using hd
      unfold Lx.opening at hd
      split at hd
      · rcases ho d hd with rfl | rfl <;> simp [ofText]
      · cases hd
    rw [layout, List.filter_append, List.filter_append, ih fun x hx => h x (by simp [hx])]
    have h1 : (l.closing cols).filter ofText = [] := by
      unfold Lx.closing
      split
      · exact hb _ _
      · rfl
    have h2 : ∀ cs, (l.body cs).filter ofText = [l.token] := by
      intro cs
      unfold Lx.body
      rw [List.filter_append, List.filter_append, List.filter_append, hop]
      have e1 : (if endsBlocks l.data = true ∧ l.level = 0 then blockEnds l.start cs else []).filter ofText = [] := by
        split
        · exact hb _ _
        · rfl
      have e2 : (if l.keyed = true ∧ l.data ≠ .value then [({ data := .key, start := l.pos, stop := l.pos } : Token)] else []).filter ofText = [] := by
        split
        · simp [ofText]
        · rfl
      rw [e1, e2, List.filter_cons_of_pos (h l (by simp))]
      rfl
    rw [h1, h2]
    rfl

/-- **C55**: in every run that reaches STREAM-END, the tokens that stand for text are, in order, those of the lexemes of the text, with nothing but white
space and comments between the lexemes; and the text has no other part. -/
theorem C55_run_reads_the_lexemes (o : Oracle) (enc : Option Enc) (bytes : List UInt8) (hsize : bytes.length < maxFileSize) (f : Nat)
    (hf : bytes.length + 3 < f) (k : Nat) (good : List Nat) (tail : List UInt8) (hs : Split (chosen enc bytes).1 (chosen enc bytes).2 good tail)
    (D : List Token) (rest : List ScanOut) (hrun : (scanRun o f (scanStart enc bytes) k).1 = D.map .token ++ rest) (hrest : ∀ t, .token t ∉ rest)
    (hc : Complete D) :
    ∃ S ls lv key, Lexed (good ++ [0]) ls good lv key ∧ D.filter ofText = S :: ls.map Lx.token ∧ ∃ en, S.data = .streamStart en := by
  obtain ⟨en, ls, u, lv, key, h1, _, h3⟩ := C58_tokens_of_the_layout o enc bytes hsize f hf k good tail hs D rest hrun hrest
  obtain ⟨rfl, rfl, rfl, _⟩ := h3 hc
  refine ⟨⟨.streamStart en, {}, {}⟩, ls, lv, key, h1, ?_, en, rfl⟩
  rw [List.filter_cons_of_pos (by rfl), layout_ofText (Spec.Lexed.ofText h1)]

/-- The tokens of `a: [b]`, the sample, which is read to its end. -/
theorem sample_lexed : ∃ ls u lv key, Lexed [97, 58, 32, 91, 98, 93, 0] ls u lv key ∧ u = [97, 58, 32, 91, 98, 93] ∧
    (layout [] ls).map (·.data) = [.blockMappingStart, .key, .scalar [97] .plain, .value, .flowSequenceStart, .scalar [98] .plain, .flowSequenceEnd,
      .blockEnd, .streamEnd] ∧ ∃ l, ls.getLast? = some l ∧ l.data = .streamEnd := by
  have hs : Split (chosen none sample).1 (chosen none sample).2 [97, 58, 32, 91, 98, 93] [] := ⟨by decide, by decide, stuck_nil _⟩
  have hc : ∃ D : List Token, (scanRun (fun _ => some 2) 20 (scanStart none sample) 10).1 = D.map .token ∧
      D.map (·.data) = [.streamStart .utf8, .blockMappingStart, .key, .scalar [97] .plain, .value, .flowSequenceStart, .scalar [98] .plain,
        .flowSequenceEnd, .blockEnd, .streamEnd] :=
    ⟨(scanRun (fun _ => some 2) 20 (scanStart none sample) 10).1.filterMap fun x => match x with
      | .token t => some t | _ => none, by decide +kernel, by decide +kernel⟩
  obtain ⟨D, h1, h2⟩ := hc
  have h3 : Complete D := by
    obtain ⟨D', t, rfl⟩ : ∃ D' t, D = D' ++ [t] := by
      rcases List.eq_nil_or_concat D with rfl | ⟨D', t, rfl⟩
      · cases h2
      · exact ⟨D', t, by simp⟩
    rw [List.map_append] at h2
    obtain ⟨e1, e2⟩ := List.append_inj' (t₁ := [t].map (·.data)) (t₂ := [TokData.streamEnd]) (s₁ := D'.map (·.data)) (s₂ := [.streamStart .utf8, .blockMappingStart, .key, .scalar [97] .plain, .value,
      .flowSequenceStart, .scalar [98] .plain, .flowSequenceEnd, .blockEnd]) h2 rfl
    refine ⟨D', t, rfl, ?_, by simpa using e2⟩
    cases D' with
    | nil => cases e1
    | cons x D' =>
      simp only [List.map_cons, List.cons.injEq] at e1
      refine ⟨x, D', _, rfl, e1.1, fun y hy => ?_⟩
      have : y.data ∈ D'.map (·.data) := List.mem_map_of_mem hy
      rw [e1.2] at this
      simp at this
      unfold isStreamTok
      rcases this with h | h | h | h | h | h | h | h <;> rw [h]
  obtain ⟨en, ls, u, lv, key, k1, k2, k3⟩ := C58_tokens_of_the_layout (fun _ => some 2) none sample (by decide) 20 (by decide) 10 _ [] hs D [] (by rw [h1]; simp)
    (by simp)
  obtain ⟨k4, _, k5, k6⟩ := k3 h3
  refine ⟨ls, u, lv, key, k1, k5, ?_, k6⟩
  rw [k4] at h2
  simp at h2
  exact h2.2

/-- Hence those tokens are delivered however the bytes of `a: [b]` arrive. -/
example (o : Oracle) (ho : NoFail o) : ((scanRun o 20 (scanStart none sample) 12).1.map fun x => match x with
      | .token t => some t.data
      | _ => none) =
    [some (.streamStart .utf8), some .blockMappingStart, some .key, some (.scalar [97] .plain), some .value, some .flowSequenceStart,
      some (.scalar [98] .plain), some .flowSequenceEnd, some .blockEnd, some .streamEnd, none, none] := by
  obtain ⟨ls, u, lv, key, h1, _, h3, h4⟩ := sample_lexed
  have hs : Split (chosen none sample).1 (chosen none sample).2 [97, 58, 32, 91, 98, 93] [] := ⟨by decide, by decide, stuck_nil _⟩
  rw [C58_delivers_the_layout o ho none sample (by decide) 20 (by decide) _ hs (by decide) h1 h4]
  rw [List.map_take, List.map_append, List.map_map, List.map_cons]
  rw [show ((fun x : ScanOut => match x with | .token t => some t.data | _ => none) ∘ ScanOut.token) = (some ∘ fun t : Token => t.data) from rfl,
    ← List.map_map, h3]
  rfl

/-- **C58**: the inputs on which the scanner reaches STREAM-END are those whose text has a token stream by the rules. -/
theorem C58_accepts_exactly (o : Oracle) (ho : NoFail o) (enc : Option Enc) (bytes : List UInt8) (hsize : bytes.length < maxFileSize) (f : Nat)
    (hf : bytes.length + 3 < f) (good : List Nat) (tail : List UInt8) (hs : Split (chosen enc bytes).1 (chosen enc bytes).2 good tail)
    (hlen : good.length + 1 < maxInt) :
    (∃ k, (scanRun o f (scanStart enc bytes) k).2.ended = true) ↔
      tail = [] ∧ ∃ ls u lv key, Lexed (good ++ [0]) ls u lv key ∧ ∃ l, ls.getLast? = some l ∧ l.data = .streamEnd := by
  constructor
  · rintro ⟨k, hk⟩
    cases scan_inv (o := o) hsize hs hf k with
    | going D i hout he _ next _ _ => rw [hk] at he; cases he
    | failed D j er i hout he herr' _ next => rw [hk] at he; cases he
    | ended D j hout he herr' final _ =>
      obtain ⟨en, ls, u, lv, key, k1, _, k3⟩ := C58_tokens_of_the_layout o enc bytes hsize f hf k good tail hs D _ hout (by
        intro t h; simp [List.mem_replicate] at h)
      obtain ⟨_, rfl, _, k5⟩ := k3 (final_body final)
      exact ⟨rfl, ls, u, lv, key, k1, k5⟩
  · rintro ⟨rfl, ls, u, lv, key, h, l, hl, hd⟩
    refine ⟨4 * bytes.length + 7, ?_⟩
    rcases (C23_scanning_terminates o enc bytes hsize f hf).1 with h' | h'
    · exact h'
    · rw [sure_calls ho hsize hs hf ⟨ls, u, lv, key, h, l, List.mem_of_getLast? hl, hd⟩ hlen] at h'
      cases h'

end LibYaml
