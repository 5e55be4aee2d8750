import Verif.Proofs.NestRun
import Verif.Props.Language

/-!
C30 for whole runs: how many collections can be open.

The parser compares the limit with the nesting depth of the scanner at the moments when it opens a collection (parser.c 174, 680, 691, 702, 713).
The scanner reads ahead, sequences without indentation and single pairs `[a: b]` have no depth, so that the claim that at most as many
collections are open as the limit allows is false. What holds is a bound of twice the limit and a constant.
-/

namespace LibYaml

open Spec

variable {f fuel : Nat}

/-- The collections that are open behind the events. -/
def openAfter (evs : List EvData) : Int := (evs.map evDelta).sum

/-- C30 (partial). However the bytes arrive and whatever they are: behind each of the events that calls of the parser deliver, at most
`2 * (n + 1025)` collections are open, if `n` is the limit. Full property: at most `n` collections and a constant are open, which
is false (`C30_violated`). -/
theorem C30_bounded_partial (o : Oracle) (n : Int) (enc : Option Enc) (bytes : List UInt8) (hsize : bytes.length < maxFileSize)
    (hf : bytes.length + 3 < f) (k : Nat) {os : List POut} {p : Parser (Scanner × RS)}
    (h : parseBytes o n f fuel enc bytes k = .ok (os, p)) (w : List EvData) (hw : w <+: events os) :
    openAfter w ≤ 2 * (n.toNat + 1025) := by
  have h0 : Bal ((scannerSrc o f).tok (scanFrom enc bytes)) 0 0 0 0 0 [.streamStart] 0 :=
    ⟨rfl, rfl, rfl, by simp [netAt], by simp [netAt], by simp [startTok], by simp, trivial⟩
  have hr : ARel (scannerSrc o f) (scanFrom enc bytes) (parserStart enc bytes).st ⟨.streamStart, [], 0, []⟩ := init_rel (scanFrom enc bytes)
  have h1 := nest_run (z := 0) (b := 0) (fl := 0) hsize hf hr h0
    ⟨by simp only [AC.upto, startTok]; exact Int.natCast_nonneg _, by simp only [AC.upto, startTok]; show (0 : Int) ≤ _; omega⟩ h w hw
  unfold openAfter
  omega

/-! ### Texts that open more collections than the limit -/

/-- The text `[?[? … [] … ]]`. -/
def pairsText : Nat → List Nat
  | 0 => [0x5B, 0x5D]
  | k + 1 => 0x5B :: 0x3F :: (pairsText k ++ [0x5D])

/-- Its tokens. -/
def bracketTok (c : Nat) : TokData := if c = 0x5B then .flowSequenceStart else if c = 0x5D then .flowSequenceEnd else .key

/-- Its characters, with the number of open brackets. -/
def brackets : Nat → List Nat → Option Nat
  | lv, [] => some lv
  | lv, c :: cs => if c = 0x5B then brackets (lv + 1) cs else if lv = 0 then none else if c = 0x5D then brackets (lv - 1) cs else
    if c = 0x3F then brackets lv cs else none

theorem brackets_append {a b : List Nat} {lv : Nat} : brackets lv (a ++ b) = (brackets lv a).bind fun m => brackets m b := by
  induction a generalizing lv with
  | nil => rfl
  | cons c a ih =>
    simp only [List.cons_append, brackets]
    split
    · exact ih
    · split
      · rfl
      · split
        · exact ih
        · split
          · exact ih
          · rfl

theorem brackets_pairs {k lv : Nat} : brackets lv (pairsText k) = some lv := by
  induction k generalizing lv with
  | zero => simp [pairsText, brackets]
  | succ k ih => simp [pairsText, brackets, brackets_append, ih]

theorem brackets_le {cs : List Nat} {lv m : Nat} (h : brackets lv cs = some m) : m ≤ lv + cs.count 0x5B := by
  induction cs generalizing lv with
  | nil => cases h; simp
  | cons c cs ih =>
    simp only [brackets] at h
    split at h
    · rename_i hc
      subst hc
      have := ih h
      rw [List.count_cons_self]
      omega
    · have := List.count_le_count_cons (a := 0x5B) (b := c) (l := cs)
      split at h
      · cases h
      · split at h
        · have := ih h; omega
        · split at h
          · have := ih h; omega
          · cases h

theorem count_pairs {k : Nat} : (pairsText k).count 0x5B = k + 1 ∧ (pairsText k).length = 3 * k + 2 := by
  induction k with
  | zero => exact ⟨by decide, rfl⟩
  | succ k ih => simp [pairsText, List.count_append, ih]; omega

/-- Lexemes in brackets. -/
def Flat (l : Lx) : Prop := l.keyed = false ∧ (l.data = .flowSequenceStart ∨ l.data = .flowSequenceEnd ∨ l.data = .key ∧ l.level ≠ 0)

theorem Flat.begins {l : Lx} (h : Flat l) : l.begins = none ∧ endsBlocks l.data = false ∧ l.data ≠ .value := by
  obtain ⟨h1, h2⟩ := h
  unfold Lx.begins
  rcases h2 with h2 | h2 | ⟨h2, h3⟩
  · simp [h1, h2, endsBlocks]
  · simp [h1, h2, endsBlocks]
  · simp [h2, h3, endsBlocks]

theorem flat_none {l : Lx} (h : Flat l) : l.within [] = [] ∧ l.leaves [] = [] ∧ l.closing [] = [] ∧ (l.body []).map Token.data = [l.data] := by
  obtain ⟨h1, h2, h3⟩ := h.begins
  have hw : l.within [] = [] := by unfold Lx.within stillOpen; split <;> rfl
  have ho : l.opening [] = none := by unfold Lx.opening; rw [h1]; split <;> rfl
  refine ⟨hw, ?_, ?_, ?_⟩
  · unfold Lx.leaves; simp [ho]
  · unfold Lx.closing endedBlocks blockEnds; simp
  · unfold Lx.body; simp [ho, h2, h.1, Lx.token]

theorem flat_blocks {ls : List Lx} (h : ∀ l ∈ ls, Flat l) : openBlocks [] ls = [] := by
  induction ls with
  | nil => rfl
  | cons l ls ih =>
    have := flat_none (h l (by simp))
    simp only [openBlocks]
    rw [this.1, this.2.1]
    exact ih fun x hx => h x (by simp [hx])

theorem flat_layout {ls r : List Lx} (h : ∀ l ∈ ls, Flat l) : (layout [] (ls ++ r)).map Token.data = ls.map (·.data) ++ (layout [] r).map Token.data := by
  induction ls with
  | nil => rfl
  | cons l ls ih =>
    have := flat_none (h l (by simp))
    simp only [layout, List.cons_append, List.map_append]
    rw [this.1, this.2.1, this.2.2.1, this.2.2.2, ih fun x hx => h x (by simp [hx])]
    rfl

theorem flat_kept {ls : List Lx} {lv : Nat} {m : Mark} {d : TokData} {key : Bool} (h : ∀ l ∈ ls, Flat l) : KeyKept ls lv m d key := by
  intro pre l post hp hr
  have h1 : openBlocks [] pre = [] := flat_blocks fun x hx => h x (by rw [hp.eq]; simp [hx])
  have h2 := (flat_none (h l (by rw [hp.eq]; simp))).1
  obtain ⟨_, h3⟩ := hr
  rw [h1, h2] at h3
  simp only [indentOf] at h3
  omega

theorem filler_nothing {flow key : Bool} {col c : Nat} {r : List Nat} (hc : c ∈ [0x5B, 0x5D, 0x3F, 0]) : Filler flow key col (c :: r) key (c :: r) := by
  have h1 : c ≠ 0x20 ∧ c ≠ 0x9 ∧ c ≠ 0x23 ∧ c ≠ 0xFEFF ∧ ¬ Brk c := by
    simp at hc
    rcases hc with rfl | rfl | rfl | rfl <;> exact ⟨by decide, by decide, by decide, by decide, by simp [Brk]⟩
  refine .last ?_ ⟨c, r, rfl, h1.2.2.2.2⟩
  refine .mk [] [] [] (c :: r) (.inl rfl) ?_ (by simp) (.inl ⟨rfl, c, r, rfl, h1.1, fun _ => h1.2.1, h1.2.2.1⟩)
  rintro _ _ ⟨c', r', h2, h3⟩
  simp only [List.nil_append, List.cons.injEq] at h2
  exact h1.2.2.2.1 (h2.1.trans h3)

/-- The lexemes of the text and of its beginnings. -/
theorem brackets_lexed {T : List Nat} (n : Nat) {u r : List Nat} {lv : Nat} (hn : u.length = n) (hT : T = u ++ r) (hb : brackets 0 u = some lv) :
    ∃ ls key, Lexed T ls u lv key ∧ ls.map (·.data) = u.map bracketTok ∧ ∀ l ∈ ls, Flat l := by
  induction n generalizing u r lv with
  | zero =>
    obtain rfl := List.eq_nil_of_length_eq_zero hn
    cases hb
    exact ⟨[], true, .start, rfl, by simp⟩
  | succ n ih =>
    rcases List.eq_nil_or_concat u with rfl | ⟨u, c, rfl⟩
    · cases hn
    · rw [List.concat_eq_append] at *
      rw [brackets_append] at hb
      cases hu : brackets 0 u with
      | none => rw [hu] at hb; cases hb
      | some m =>
        rw [hu] at hb
        obtain ⟨ls, key, h1, h2, h3⟩ := ih (u := u) (r := c :: r) (by simpa using hn) (by rw [hT]; simp) hu
        have hb' : brackets m [c] = some lv := hb
        have hno : ∀ x ∈ ls, x.data ≠ .streamEnd := by
          intro x hx
          rcases (h3 x hx).2 with h | h | h <;> simp [h]
        have key : ∀ {d}, c ∈ [0x5B, 0x5D, 0x3F, 0] → d ≠ .value → (m = 0 → needsFree d false = true → key = true) → levelAfter m d = lv →
            (∀ fl i col, (fl = decide (m ≠ 0)) → Lexeme fl i col (c :: r) d r r false) → d = bracketTok c →
            (∀ p q k, Flat { data := d, pos := p, stop := q, level := m, free := k, keyed := false }) →
            ∃ ls key, Lexed T ls (u ++ [c]) lv key ∧ ls.map (·.data) = (u ++ [c]).map bracketTok ∧ ∀ l ∈ ls, Flat l := by
          intro d g1 g2 g3 g4 g5 g6 g7
          have := Lexed.next (w := []) (v := [c]) (x := [c]) (mid := r) (rest := r) (d := d) (line := false) h1 hno (by rw [hT]; simp) (filler_nothing g1)
            (g5 _ _ _ rfl) rfl (.other g2) (flat_kept h3) g3
          rw [g4] at this
          refine ⟨_, _, this, ?_, ?_⟩
          · simp [h2, g6]
          · intro l hl
            rcases List.mem_append.mp hl with hl | hl
            · exact h3 l hl
            · rw [List.mem_singleton] at hl
              rw [hl]
              exact g7 _ _ _
        simp only [brackets] at hb'
        split at hb'
        · rename_i hc
          subst hc
          cases hb'
          exact key (d := .flowSequenceStart) (by simp) (by simp) (by simp [needsFree]) rfl (fun _ _ _ _ => .flowSequenceStart r) rfl (fun _ _ _ => ⟨rfl, .inl rfl⟩)
        · split at hb'
          · cases hb'
          · rename_i hm
            split at hb'
            · rename_i hc
              subst hc
              cases hb'
              exact key (d := .flowSequenceEnd) (by simp) (by simp) (by simp [needsFree]) rfl (fun _ _ _ _ => .flowSequenceEnd r) rfl (fun _ _ _ => ⟨rfl, .inr (.inl rfl)⟩)
            · split at hb'
              · rename_i hc
                subst hc
                cases hb'
                exact key (d := .key) (by simp) (by simp) (fun h => absurd h hm) rfl (fun fl _ _ hfl => .key r (.inl (by rw [hfl]; simpa using hm))) rfl
                  (fun _ _ _ => ⟨rfl, .inr (.inr ⟨rfl, hm⟩)⟩)
              · cases hb'

/-- All lexemes of the text. -/
theorem brackets_ended {text : List Nat} (hb : brackets 0 text = some 0) : ∃ ls u key, Lexed (text ++ [0]) ls u 0 key ∧ (∃ l, ls.getLast? = some l ∧ l.data = .streamEnd) ∧
    (layout [] ls).map Token.data = text.map bracketTok ++ [.streamEnd] ∧ openBlocks [] ls = [] ∧ ls.length = text.length + 1 := by
  obtain ⟨ls, key, h1, h2, h3⟩ := brackets_lexed (T := text ++ [0]) text.length rfl rfl hb
  have hno : ∀ x ∈ ls, x.data ≠ .streamEnd := by
    intro x hx
    rcases (h3 x hx).2 with h | h | h <;> simp [h]
  have := Lexed.next (w := []) (v := []) (x := []) (mid := [0]) (rest := [0]) (d := .streamEnd) (line := false) h1 hno (by simp) (filler_nothing (by simp))
    (.streamEnd []) rfl (.other (by simp)) (flat_kept h3) (by simp [needsFree])
  have hl : (ls.length : Nat) = text.length := by simpa using congrArg List.length h2
  refine ⟨_, _, _, this, ⟨_, by simp; rfl, rfl⟩, ?_, ?_, by simp [hl]⟩
  · rw [flat_layout h3, h2]
    simp [layout, Lx.closing, Lx.body, Lx.within, Lx.opening, Lx.begins, endedBlocks, blockEnds, endsBlocks, stillOpen, Lx.token, indentOf]
  · have : ∀ a b : List Lx, openBlocks [] (a ++ b) = openBlocks (openBlocks [] a) b := by
      intro a b
      generalize ([] : List Nat) = cols
      induction a generalizing cols with
      | nil => rfl
      | cons x a ih => exact ih _
    rw [this, flat_blocks h3]
    simp [openBlocks, Lx.leaves, endsBlocks]

theorem brackets_shallow {text : List Nat} {n : Int} (hb : brackets 0 text = some 0) (hn : ((text.count 0x5B : Nat) : Int) < n) : ShallowText text n := by
  intro ls u lv key hl
  obtain ⟨ls1, u1, key1, g1, _, _, g4, g5⟩ := brackets_ended hb
  have hcnt := hl.count.1
  have hu : u.length ≤ text.length := by
    obtain ⟨r, hr⟩ : ∃ r, text ++ [0] = u ++ r := by
      cases hl with
      | start => exact ⟨_, rfl⟩
      | next _ _ hT => exact ⟨_, by rw [hT]; simp [List.append_assoc]; rfl⟩
    have := hl.nul (r := r) (by simp) hr
    have := congrArg List.length hr
    cases r with
    | nil => simp_all
    | cons c r => simp at this; omega
  by_cases hlen : ls.length ≤ text.length
  · have hpre : text = text.take ls.length ++ text.drop ls.length := (List.take_append_drop _ _).symm
    have hb' := hb
    rw [hpre, brackets_append] at hb'
    cases hm : brackets 0 (text.take ls.length) with
    | none => rw [hm] at hb'; cases hb'
    | some m =>
      obtain ⟨ls2, key2, k1, k2, k3⟩ := brackets_lexed (T := text ++ [0]) (r := text.drop ls.length ++ [0]) _ rfl (by rw [← List.append_assoc, ← hpre]) hm
      obtain ⟨rfl, _, rfl, _⟩ := hl.unique (by simp) k1 (by
        have := congrArg List.length k2
        simp at this
        omega)
      rw [flat_blocks k3]
      have h1 := brackets_le hm
      have h2 : (text.take ls.length).count 0x5B ≤ text.count 0x5B := List.Sublist.count_le _ (List.take_sublist _ _)
      simp
      omega
  · obtain ⟨rfl, _, rfl, _⟩ := hl.unique (by simp) g1 (by omega)
    rw [g4]
    simp
    omega

/-- The events of the text. -/
def pairsEvents : Nat → List EvData
  | 0 => [.sequenceStart none none true .flow, .sequenceEnd]
  | k + 1 => .sequenceStart none none true .flow :: .mappingStart none none true .flow :: (pairsEvents k ++ [absent, .mappingEnd, .sequenceEnd])

theorem pairs_gram {k : Nat} {b : Bool} : Gram .implemented [] (.node b false) ((pairsText k).map bracketTok) (pairsEvents k) := by
  induction k generalizing b with
  | zero => exact .flowSequence (p := []) .none .itemsNil
  | succ k ih =>
    have := Gram.flowSequence (v := .implemented) (tags := []) (b := b) (i := false) (p := []) .none (.itemsOne (.itemPair (ih (b := false)) .noValue))
    simpa [pairsText, pairsEvents, bracketTok, untagged] using this

theorem pairs_opens {k : Nat} : ∃ w, w <+: pairsEvents k ∧ openAfter w = 2 * k + 1 := by
  induction k with
  | zero => exact ⟨[.sequenceStart none none true .flow], ⟨[.sequenceEnd], rfl⟩, rfl⟩
  | succ k ih =>
    obtain ⟨w, ⟨r, hr⟩, hw⟩ := ih
    refine ⟨.sequenceStart none none true .flow :: .mappingStart none none true .flow :: w, ⟨r ++ [absent, .mappingEnd, .sequenceEnd], ?_⟩, ?_⟩
    · simp [pairsEvents, ← hr]
    · simp only [openAfter, List.map_cons, List.sum_cons, evDelta] at hw ⊢
      rw [hw]
      push_cast
      omega

theorem pairs_chars {k : Nat} : ∀ c ∈ pairsText k, c = 0x5B ∨ c = 0x5D ∨ c = 0x3F := by
  induction k with
  | zero => simp [pairsText]
  | succ k ih =>
    intro c hc
    simp [pairsText] at hc
    rcases hc with h | h | h | h
    · simp [h]
    · simp [h]
    · exact ih c h
    · simp [h]

/-- C30 fails: for each limit from 2 on there is an input, about three times as long, that the parser reads to its end without an error, however
the bytes arrive, and at one moment almost twice as many collections are open. The sizes are limited only by what an `int` can
hold. -/
theorem C30_violated (o : Oracle) (ho : NoFail o) (k : Nat) (hk : 3 * k + 3 < maxInt) : ∃ (bytes : List UInt8) (es : List Event) (p : _),
    bytes.length = 3 * k + 2 ∧
    parseBytes o (k + 2 : Nat) (3 * k + 6) (12 * k + 16) (some .utf8) bytes es.length = .ok (es.map .event, p) ∧ p.error = none ∧ p.st.state = .done ∧
    ∃ w, w <+: es.map Event.data ∧ openAfter w = 2 * k + 1 := by
  have hm : maxInt < maxFileSize := by decide
  have hlen : (encodes .utf8 (pairsText k)).length = 3 * k + 2 := by
    rw [← (count_pairs (k := k)).2]
    have := pairs_chars (k := k)
    generalize pairsText k = t at this
    induction t with
    | nil => rfl
    | cons c t ih =>
      have h1 := ih fun x hx => this x (by simp [hx])
      have h2 : (encode .utf8 c).length = 1 := by rcases this c (by simp) with rfl | rfl | rfl <;> decide
      simp only [encodes, List.flatMap_cons, List.length_append, List.length_cons] at h1 ⊢
      omega
  obtain ⟨ls, u, key, h1, h2, h3, _, _⟩ := brackets_ended (brackets_pairs (k := k) (lv := 0))
  obtain ⟨w, hw, hw'⟩ := pairs_opens (k := k)
  have hmean : Meaning .utf8 (pairsText k) (.streamStart (some .utf8) :: .documentStart none [] true :: pairsEvents k ++ .documentEnd true :: [.streamEnd]) := by
    refine ⟨ls, u, 0, key, h1, h2, ?_⟩
    rw [h3]
    have := Spec.Stream.implicit (v := .implemented) .utf8 0 (pairs_gram (k := k)) .done
    simpa using this
  obtain ⟨es, p, k1, k2, k3, k4⟩ := C59_complete (f := 3 * k + 6) (fuel := 12 * k + 16) o ho (k + 2 : Nat) (some .utf8) (encodes .utf8 (pairsText k)) (by omega) (by omega) (by omega) (pairsText k)
    ⟨by simp [chosen], fun c hc => by rcases pairs_chars c hc with rfl | rfl | rfl <;> decide, stuck_nil _⟩ (by rw [count_pairs.2]; omega)
    (brackets_shallow brackets_pairs (by rw [count_pairs.1]; omega)) hmean
  refine ⟨_, es, p, hlen, ?_, k3, k4, .streamStart (some .utf8) :: .documentStart none [] true :: w, ?_, ?_⟩
  · rw [← k1, ← k2, List.length_map]
  · rw [k2]
    obtain ⟨r, hr⟩ := hw
    exact ⟨r ++ .documentEnd true :: [.streamEnd], by simp [← hr]⟩
  · simpa [openAfter, evDelta] using hw'

/-- With the default limit (parser.c 67), 1997 collections. -/
example : ∃ (bytes : List UInt8) (es : List Event) (p : _), parseBytes (fun _ => some 100) 1000 3000 11992 (some .utf8) bytes es.length = .ok (es.map .event, p) ∧
    p.error = none ∧ p.st.state = .done ∧ ∃ w, w <+: es.map Event.data ∧ openAfter w = 1997 := by
  obtain ⟨bytes, es, p, _, h2, h3, h4, h5⟩ := C30_violated (fun _ => some 100) (fun _ => by simp) 998 (by decide)
  exact ⟨bytes, es, p, h2, h3, h4, h5⟩

/-- The scanner reads ahead to see whether a bracket begins an implicit key: with the limit 1, `[[[[a]]]]` is read to its end. -/
example : (match parseBytes (fun _ => some 3) 1 20 100 (some .utf8) [91, 91, 91, 91, 97, 93, 93, 93, 93] 13 with
    | .ok (os, p) => some (events os, p.error)
    | .error _ => none) = some ([.streamStart (some .utf8), .documentStart none [] true, .sequenceStart none none true .flow,
      .sequenceStart none none true .flow, .sequenceStart none none true .flow, .sequenceStart none none true .flow,
      .scalar none none [97] true false .plain, .sequenceEnd, .sequenceEnd, .sequenceEnd, .sequenceEnd, .documentEnd true, .streamEnd], none) := by
  decide +kernel

end LibYaml
