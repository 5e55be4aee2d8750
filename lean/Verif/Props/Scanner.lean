import Verif.Proofs.ScannerCalls
import Verif.Proofs.ScannerKeys

/-!
# C18-C24: the scanner

`scanRun o f (scanStart enc bytes) k` are `k` calls of `yaml_parser_scan` on a fresh parser whose input is `bytes`,
delivered by a handler that splits it as `o` says and with the encoding setting `enc`. `f` is the fuel of the modelled
loops; the theorems hold for every `f` greater than the number of bytes plus 3, and C23 says that this fuel is never
exhausted. `good` is the longest prefix of the input that decodes to permitted characters (it exists for every input,
`exists_split`).
-/

namespace LibYaml

open Spec

/-! ### Prefixes -/

theorem opened_prefix {D q : List Token} (h : Opened (D ++ q)) : D = [] ∨ Opened D := by
  cases D with
  | nil => exact .inl rfl
  | cons t D =>
    obtain ⟨x, rest, en, heq, h1, h2⟩ := h
    cases heq
    exact .inr ⟨t, D, en, rfl, h1, fun y hy => h2 y (by simp [hy])⟩

theorem blockLevel_prefix {D q : List Token} {n l : Nat} (h : blockLevel n (D ++ q) = some l) :
    ∃ m, blockLevel n D = some m := by
  rw [blockLevel_append] at h
  cases hd : blockLevel n D with
  | none => rw [hd] at h; cases h
  | some m => exact ⟨m, rfl⟩

theorem final_body {T : List Nat} {A : List Token} (h : Final T A) :
    ∃ body t, A = body ++ [t] ∧ Opened body ∧ t.data = .streamEnd := by
  obtain ⟨A0, B, t, m, u, r, h1, _, _, h2, h3, h4, _⟩ := h.parts
  refine ⟨A0 ++ B, t, h1, ?_, by rw [h4]⟩
  obtain ⟨x, rest, en, rfl, k1, k2⟩ := h2.opened
  refine ⟨x, rest ++ B, en, rfl, k1, fun y hy => ?_⟩
  rcases List.mem_append.mp hy with hy | hy
  · exact k2 y hy
  · rw [h3 y hy]; rfl

theorem next_opened {T : List Nat} {e : Option Fail} {D : List Token} {s : Scanner} {i : In} (h : Next T e D s i) :
    D = [] ∨ Opened D := by
  cases h with
  | fresh hD _ => exact .inl hD
  | running h => exact opened_prefix h.base.toks.opened
  | ended h =>
    obtain ⟨body, t, h1, h2, _⟩ := final_body h.final
    obtain ⟨q', y, hq⟩ : ∃ q' y, s.tokens = q' ++ [y] :=
      ⟨s.tokens.dropLast, s.tokens.getLast h.ne, (List.dropLast_concat_getLast h.ne).symm⟩
    rw [hq, ← List.append_assoc] at h1
    have : D ++ q' = body := by
      have := congrArg List.dropLast h1
      simpa using this
    rw [← this] at h2
    exact opened_prefix h2

/-! ### C18 -/

/-- **C18.** What any number of calls returns: tokens; after STREAM-END, or after a failed call, only empty tokens. The
tokens begin with one STREAM-START, and STREAM-END occurs only as the last one. -/
theorem C18_token_stream_framing (o : Oracle) (enc : Option Enc) (bytes : List UInt8) (hsize : bytes.length < maxFileSize)
    (f : Nat) (hf : bytes.length + 3 < f) (k : Nat) :
    ∃ D : List Token,
      ((scanRun o f (scanStart enc bytes) k).1 = D.map .token ∧ (D = [] ∨ Opened D)) ∨
      (∃ j, (scanRun o f (scanStart enc bytes) k).1 = D.map .token ++ List.replicate j .nothing ∧ Complete D) ∨
      (∃ j, (scanRun o f (scanStart enc bytes) k).1 = D.map .token ++ .failed :: List.replicate j .nothing ∧
        (D = [] ∨ Opened D)) := by
  obtain ⟨good, tail, hs⟩ := exists_split (chosen enc bytes).1 (chosen enc bytes).2
  cases scan_inv (o := o) hsize hs hf k with
  | going D i hout _ _ next _ _ => exact ⟨D, .inl ⟨hout, next_opened next⟩⟩
  | ended D j hout _ _ final _ => exact ⟨D, .inr (.inl ⟨j, hout, final_body final⟩)⟩
  | failed D j er i hout _ _ _ next => exact ⟨D, .inr (.inr ⟨j, hout, next_opened next⟩)⟩

/-- The text `a: [b]`. -/
def sample : List UInt8 := [97, 58, 32, 91, 98, 93]

example : ((scanRun (fun _ => some 2) 20 (scanStart none sample) 12).1.map fun x => match x with
      | .token t => some t.data | _ => none) =
    [some (.streamStart .utf8), some .blockMappingStart, some .key, some (.scalar [97] .plain), some .value,
      some .flowSequenceStart, some (.scalar [98] .plain), some .flowSequenceEnd, some .blockEnd, some .streamEnd,
      none, none] := by decide +kernel

/-- An unclosed quoted scalar: STREAM-START, failure, then empty tokens. -/
example : ((scanRun (fun _ => some 2) 20 (scanStart none [34, 97]) 4).1.map fun x => match x with
      | .token _ => 0 | .failed => 1 | .nothing => 2) = [0, 1, 2, 2] := by decide +kernel

/-! ### C19 -/

/-- **C19 fails**: an unclosed flow collection suppresses the BLOCK-ENDs. For the text `- [a` the scanner delivers a
complete token stream that leaves a block sequence open (scanner.c:1268-1269: `unroll_indent` does nothing in the flow
context, also at the end of the stream). -/
theorem C19_block_left_open : ∃ D : List Token,
    (scanRun (fun _ => some 1) 20 (scanStart none [45, 32, 91, 97]) 6).1 = D.map .token ∧ Complete D ∧
      blockLevel 0 D = some 1 := by
  have h : ∃ D : List Token, (scanRun (fun _ => some 1) 20 (scanStart none [45, 32, 91, 97]) 6).1 = D.map .token ∧
      D.length = 6 ∧ blockLevel 0 D = some 1 ∧ (D.getLast?.map fun t => t.data) = some .streamEnd := by
    refine ⟨(scanRun (fun _ => some 1) 20 (scanStart none [45, 32, 91, 97]) 6).1.filterMap fun x => match x with
      | .token t => some t | _ => none, ?_⟩
    decide +kernel
  obtain ⟨D, h1, h2, h3, h4⟩ := h
  refine ⟨D, h1, ?_, h3⟩
  obtain ⟨D', h⟩ := C18_token_stream_framing (fun _ => some 1) none [45, 32, 91, 97] (by decide) 20 (by decide) 6
  have hinj : ∀ {a b : List Token}, a.map ScanOut.token = b.map ScanOut.token → a = b := by
    intro a
    induction a with
    | nil => intro b h; cases b with | nil => rfl | cons _ _ => cases h
    | cons x a ih =>
      intro b h
      cases b with
      | nil => cases h
      | cons y b => simp at h; rw [h.1, ih (by simpa using h.2)]
  rw [h1] at h
  rcases h with ⟨k1, k2⟩ | ⟨j, k1, k2⟩ | ⟨j, k1, _⟩
  · have := hinj k1; subst this
    exfalso
    rcases k2 with rfl | ⟨t, rest, en, rfl, k3, k4⟩
    · cases h2
    · cases rest with
      | nil => cases h2
      | cons r rs =>
        obtain ⟨y, hy⟩ : ∃ y, (t :: r :: rs).getLast? = some y := ⟨_, List.getLast?_cons_cons ..⟩
        rw [hy] at h4
        have hmem : y ∈ r :: rs := by
          rw [List.getLast?_cons_cons] at hy
          exact List.mem_of_getLast? hy
        have := k4 y hmem
        simp at h4
        simp [isStreamTok, h4] at this
  · cases j with
    | zero => simp at k1; have := hinj k1; subst this; exact k2
    | succ j =>
      exfalso
      have : ScanOut.nothing ∈ D.map ScanOut.token := by rw [k1]; simp
      simp at this
  · exfalso
    have : ScanOut.failed ∈ D.map ScanOut.token := by rw [k1]; simp
    simp at this

theorem next_blocks {T : List Nat} {e : Option Fail} {D : List Token} {s : Scanner} {i : In} (h : Next T e D s i) :
    ∃ l, blockLevel 0 D = some l := by
  cases h with
  | fresh hD _ => subst hD; exact ⟨0, rfl⟩
  | running h => exact blockLevel_prefix h.base.blocks
  | ended h => obtain ⟨l, h1, _⟩ := h.final.blocks; exact blockLevel_prefix h1

/-- **C19** without the false part: at no time have more BLOCK-ENDs than starts been delivered; and in a complete token
stream every block collection is closed, provided that every flow collection is. Missing: closing block collections
around a flow collection that is left open, which the scanner does not do (`C19_block_left_open`). -/
theorem C19_block_collections_closed_partial (o : Oracle) (enc : Option Enc) (bytes : List UInt8)
    (hsize : bytes.length < maxFileSize) (f : Nat) (hf : bytes.length + 3 < f) (k : Nat) (D : List Token)
    (rest : List ScanOut) (hrun : (scanRun o f (scanStart enc bytes) k).1 = D.map .token ++ rest) :
    (∃ l, blockLevel 0 D = some l) ∧ (Complete D → flowDepth D = 0 → blockLevel 0 D = some 0) := by
  obtain ⟨good, tail, hs⟩ := exists_split (chosen enc bytes).1 (chosen enc bytes).2
  -- `D` is a prefix of the tokens delivered
  have hpre : ∀ {A : List Token} {r : List ScanOut}, (∀ x ∈ r, ∀ t, x ≠ .token t) →
      D.map ScanOut.token ++ rest = A.map ScanOut.token ++ r → ∃ q, A = D ++ q := by
    intro A
    clear hrun
    induction D generalizing A with
    | nil => intro r _ _; exact ⟨A, rfl⟩
    | cons d D ih =>
      intro r hr h
      cases A with
      | nil =>
        simp at h
        exact absurd rfl (hr (.token d) (by rw [← h]; simp) d)
      | cons a A =>
        simp at h
        obtain ⟨q, hq⟩ := ih hr h.2
        exact ⟨q, by rw [h.1, hq]; rfl⟩
  have hmid : ∀ {A q : List Token}, A = D ++ q → (∀ t ∈ A, t.data ≠ .streamEnd) → ¬ Complete D := by
    rintro A q rfl h ⟨body, t, h1, _, h3⟩
    exact h t (by rw [h1]; simp) h3
  cases scan_inv (o := o) hsize hs hf k with
  | going A i hout _ _ next _ _ =>
    obtain ⟨q, hq⟩ := hpre (A := A) (r := []) (by simp) (by rw [← hrun, hout]; simp)
    obtain ⟨l, hl⟩ := next_blocks next
    refine ⟨blockLevel_prefix (by rw [← hq]; exact hl), fun hc => absurd hc (hmid hq ?_)⟩
    rcases next_opened next with rfl | ⟨x, r, en, rfl, h1, h2⟩
    · simp
    · intro t ht hd
      rcases List.mem_cons.mp ht with rfl | ht
      · rw [hd] at h1; cases h1
      · have := h2 t ht; simp [isStreamTok, hd] at this
  | ended A j hout _ _ final _ =>
    obtain ⟨q, hq⟩ := hpre (A := A) (r := List.replicate j .nothing)
      (by intro x hx t; rw [(List.mem_replicate.mp hx).2]; simp) (by rw [← hrun, hout])
    obtain ⟨l, hl, hz⟩ := final.blocks
    refine ⟨blockLevel_prefix (by rw [← hq]; exact hl), fun hc hfl => ?_⟩
    obtain ⟨body, t, h1, h2, h3⟩ := hc
    cases q with
    | nil =>
      rw [List.append_nil] at hq
      subst hq
      rw [hl, hz hfl]
    | cons y q => exact absurd h3 (final_last (A := D) (by rw [← hq]; exact final) (by simp) t (by rw [h1]; simp))
  | failed A j er i hout _ _ _ next =>
    obtain ⟨q, hq⟩ := hpre (A := A) (r := .failed :: List.replicate j .nothing)
      (by intro x hx t; rcases List.mem_cons.mp hx with rfl | hx
          · simp
          · rw [(List.mem_replicate.mp hx).2]; simp) (by rw [← hrun, hout])
    obtain ⟨l, hl⟩ := next_blocks next
    refine ⟨blockLevel_prefix (by rw [← hq]; exact hl), fun hc => absurd hc (hmid hq ?_)⟩
    rcases next_opened next with rfl | ⟨x, r, en, rfl, h1, h2⟩
    · simp
    · intro t ht hd
      rcases List.mem_cons.mp ht with rfl | ht
      · rw [hd] at h1; cases h1
      · have := h2 t ht; simp [isStreamTok, hd] at this

/-- `a: [b]`: complete, flow collections closed, one block mapping opened and closed. -/
example : ∃ D : List Token, (scanRun (fun _ => some 2) 20 (scanStart none sample) 10).1 = D.map .token ∧
    flowDepth D = 0 ∧ blockLevel 0 D = some 0 ∧ D.any opensBlock = true ∧
    (D.getLast?.map fun t => t.data) = some .streamEnd :=
  ⟨(scanRun (fun _ => some 2) 20 (scanStart none sample) 10).1.filterMap fun x => match x with
      | .token t => some t | _ => none, by decide +kernel⟩

/-! ### C20 -/

/-- **C20.** Between calls, once STREAM-START has been produced and unless a call failed, the columns of the open block
collections are strictly nested above -1. They are as many as the tokens say. -/
theorem C20_columns_strictly_nested (o : Oracle) (enc : Option Enc) (bytes : List UInt8)
    (hsize : bytes.length < maxFileSize) (f : Nat) (hf : bytes.length + 3 < f) (k : Nat) (hk : k ≠ 0) :
    NestedColumns ((scanRun o f (scanStart enc bytes) k).2.scanner.indent ::
        (scanRun o f (scanStart enc bytes) k).2.scanner.indents) ∨
    (scanRun o f (scanStart enc bytes) k).1.head? = some .failed := by
  obtain ⟨good, tail, hs⟩ := exists_split (chosen enc bytes).1 (chosen enc bytes).2
  have hlen : (scanRun o f (scanStart enc bytes) k).1.length = k := by
    clear hk
    induction k with
    | zero => rfl
    | succ k ih => simp [scanRun, ih]
  have hnext : ∀ {T : List Nat} {e : Option Fail} {D : List Token} {s : Scanner} {i : In}, Next T e D s i → D ≠ [] →
      NestedColumns (s.indent :: s.indents) := by
    intro T e D s i h hD
    cases h with
    | fresh h _ => exact absurd h hD
    | running h => exact h.base.nested
    | ended h => exact h.rest.nested
  cases scan_inv (o := o) hsize hs hf k with
  | going D i hout _ _ next _ _ =>
    refine .inl (hnext next ?_)
    rintro rfl
    rw [hout] at hlen
    exact hk (by simpa using hlen.symm)
  | ended D j hout _ _ final nested => exact .inl nested
  | failed D j er i hout _ _ _ next =>
    cases D with
    | nil => exact .inr (by rw [hout]; rfl)
    | cons t D => exact .inl (hnext next (by simp))

/-- A collection opens exactly when, in the block context, the column is greater than that of the innermost open one;
it then becomes the innermost one. -/
theorem C20_opening (column : Nat) (number : Option Nat) (data : TokData) (mark : Mark) (s s' : Scanner)
    (h : s.rollIndent column number data mark = .ok s') :
    (s.flowLevel = 0 ∧ s.indent < column ∧ s'.indent = column ∧ s'.indents = s.indent :: s.indents) ∨
    ((s.flowLevel ≠ 0 ∨ (column : Int) ≤ s.indent) ∧ s' = s) := by
  unfold Scanner.rollIndent at h
  split at h
  · rename_i hf; cases h; exact .inr ⟨.inl hf, rfl⟩
  · rename_i hf
    split at h
    · rename_i hlt
      split at h
      · cases h
      · left
        refine ⟨by simpa using hf, hlt, ?_⟩
        cases number with
        | none => cases h; exact ⟨rfl, rfl⟩
        | some n =>
          simp only [Scanner.insert] at h
          split at h
          · cases h
          · cases h; exact ⟨rfl, rfl⟩
    · rename_i hlt; cases h; exact .inr ⟨.inr (by omega), rfl⟩

/-- Closing in the block context removes exactly the columns greater than the given one, each with one BLOCK-END. -/
theorem C20_closing (column : Int) (hc : -1 ≤ column) (s : Scanner) (hn : NestedColumns (s.indent :: s.indents))
    (hflow : s.flowLevel = 0) :
    ∃ s', s.unrollIndent column = .ok s' ∧
      s'.indent :: s'.indents = (s.indent :: s.indents).filter (fun x => decide (x ≤ column)) ∧
      s'.tokens = s.tokens ++ List.replicate ((s.indent :: s.indents).filter (fun x => decide (column < x))).length
        { data := .blockEnd, start := s.mark, stop := s.mark } := by
  obtain ⟨pre, ind', inds', h1, h2, h3, h4, h5⟩ := unrollLoop_spec (mark := s.mark) (q := s.tokens) hn hc
  refine ⟨{ s with indent := ind', indents := inds', tokens := s.tokens ++ endToks s.mark pre }, ?_, ?_, ?_⟩
  · unfold Scanner.unrollIndent
    rw [if_neg (by simp [hflow]), h5]
  all_goals
    have hlow : ∀ (l : List Int) (x : Int), NestedColumns (x :: l) → ∀ y ∈ x :: l, y ≤ x := by
      intro l
      induction l with
      | nil => intro x _ y hy; simp at hy; omega
      | cons z l ih =>
        intro x hx y hy
        rcases List.mem_cons.mp hy with rfl | hy
        · omega
        · have := ih z hx.2 y hy; have := hx.1; omega
    have hall : ∀ y ∈ ind' :: inds', y ≤ column := fun y hy => by have := hlow _ _ h4 y hy; omega
    rw [h1, List.filter_append]
  · have e1 : pre.filter (fun x => decide (x ≤ column)) = [] :=
      List.filter_eq_nil_iff.mpr fun x hx => by have := h2 x hx; simp; omega
    rw [e1, List.filter_eq_self.mpr fun x hx => by simpa using hall x hx]
    rfl
  · have e1 : (ind' :: inds').filter (fun x => decide (column < x)) = [] :=
      List.filter_eq_nil_iff.mpr fun x hx => by have := hall x hx; simp; omega
    rw [e1, List.filter_eq_self.mpr fun x hx => by simpa using h2 x hx]
    show s.tokens ++ endToks s.mark pre = _
    simp [endToks, List.map_const']

/-- Three collections open, at columns 0, 2 and 4; going back to column 2 closes one. -/
example : NestedColumns [4, 2, 0, -1] := by simp [NestedColumns]
example : (Scanner.unrollIndent 2 { indent := 4, indents := [2, 0, -1] }).map (fun s => (s.indent :: s.indents, s.tokens.length)) =
    .ok ([2, 0, -1], 1) := rfl

/-! ### C21 -/

/-- **C21** in terms of what is delivered: in a complete token stream every implicit KEY is followed by a VALUE on the
same line and at most 1024 characters further on. -/
theorem C21_implicit_keys_are_short (o : Oracle) (enc : Option Enc) (bytes : List UInt8)
    (hsize : bytes.length < maxFileSize) (f : Nat) (hf : bytes.length + 3 < f) (k : Nat) (D : List Token) (j : Nat)
    (hrun : (scanRun o f (scanStart enc bytes) k).1 = D.map .token ++ List.replicate j .nothing) (hc : Complete D) :
    KeysServed D := by
  obtain ⟨good, tail, hs⟩ := exists_split (chosen enc bytes).1 (chosen enc bytes).2
  have hinj : ∀ {a b : List Token} {i j : Nat}, a.map ScanOut.token ++ List.replicate i .nothing =
      b.map ScanOut.token ++ List.replicate j .nothing → a = b := by
    intro a
    induction a with
    | nil =>
      intro b i j h
      cases b with
      | nil => rfl
      | cons y b => cases i <;> simp [List.replicate_succ] at h
    | cons x a ih =>
      intro b i j h
      cases b with
      | nil => cases j <;> simp [List.replicate_succ] at h
      | cons y b => simp at h; rw [h.1, ih (by simpa using h.2)]
  obtain ⟨body, t, h1, _, h3⟩ := hc
  cases scan_inv (o := o) hsize hs hf k with
  | going A i hout _ _ next _ _ =>
    exfalso
    have := hinj (a := A) (b := D) (i := 0) (j := j) (by rw [← hrun, hout]; simp)
    subst this
    rcases next_opened next with rfl | ⟨x, r, en, rfl, g1, g2⟩
    · simp at h1
    · have ht : t ∈ x :: r := by rw [h1]; simp
      rcases List.mem_cons.mp ht with rfl | ht
      · rw [h3] at g1; cases g1
      · have := g2 t ht; simp [isStreamTok, h3] at this
  | ended A j' hout _ _ final _ =>
    have := hinj (hout.symm.trans hrun)
    subst this
    exact final.served
  | failed A j' er i hout _ _ _ next =>
    exfalso
    have : ScanOut.failed ∈ D.map ScanOut.token ++ List.replicate j .nothing := by rw [← hrun, hout]; simp
    simp [List.mem_replicate] at this

/-- The key of `a: [b]` is implicit and is served. -/
example : ∃ D : List Token, (scanRun (fun _ => some 2) 20 (scanStart none sample) 10).1 = D.map .token ∧
    (D[2]?.map fun t => (t.data, t.stop == t.start)) = some (.key, true) ∧
    (D[4]?.map fun t => (t.data, t.start)) = some (.value, { index := 1, line := 0, column := 1 }) :=
  ⟨(scanRun (fun _ => some 2) 20 (scanStart none sample) 10).1.filterMap fun x => match x with
      | .token t => some t | _ => none, by decide +kernel⟩

/-- **C21**, the required keys: a key is required if it starts a line of an open block mapping, i.e. in the block context
at the column of the innermost collection. -/
theorem C21_required (s s' : Scanner) (h : s.saveKey = .ok s') (ha : s.allowed = true) :
    ∃ k ks, s'.keys = k :: ks ∧ k.possible = true ∧ k.mark = s.mark ∧
      (k.required = true ↔ s.flowLevel = 0 ∧ s.indent = s.mark.column) := by
  unfold Scanner.saveKey at h
  rw [if_pos ha] at h
  cases hr : s.removeKey with
  | error e => rw [hr] at h; cases h
  | ok s1 =>
    obtain ⟨k, ks, hk, hp, rfl⟩ := removeKey_ok hr
    rw [hr] at h
    cases h
    exact ⟨_, ks, rfl, rfl, rfl, by simp⟩

/-- **C21**: a required key is never lost silently. If one is pending before a call, then after a successful call it is
still pending, on the current line and at most 1024 characters back; or an implicit KEY token has been produced for it. -/
theorem C21_required_keys_are_kept (o : Oracle) (enc : Option Enc) (bytes : List UInt8)
    (hsize : bytes.length < maxFileSize) (f : Nat) (hf : bytes.length + 3 < f) (n : Nat) (t : Token)
    (hcall : (scanCall (onReader o) f (scanRun o f (scanStart enc bytes) n).2).1 = .token t) (k : SimpleKey)
    (hk : Pending (scanRun o f (scanStart enc bytes) n).2.scanner k) :
    (Pending (scanRun o f (scanStart enc bytes) (n + 1)).2.scanner k ∧
      (scanRun o f (scanStart enc bytes) (n + 1)).2.scanner.mark.line ≤ k.mark.line ∧
      (scanRun o f (scanStart enc bytes) (n + 1)).2.scanner.mark.index ≤ k.mark.index + 1024) ∨
    Keyed (t :: (scanRun o f (scanStart enc bytes) (n + 1)).2.scanner.tokens) k := by
  obtain ⟨good, tail, hs⟩ := exists_split (chosen enc bytes).1 (chosen enc bytes).2
  have hinv := scan_inv (o := o) hsize hs hf n
  have hstep : (scanRun o f (scanStart enc bytes) (n + 1)).2 = (scanCall (onReader o) f (scanRun o f (scanStart enc bytes) n).2).2 := rfl
  rw [hstep]
  generalize (scanRun o f (scanStart enc bytes) n).2 = st at hinv hcall hk
  have hT := inputOf_length hs
  cases hinv with
  | ended D j hout hend herr final nested => unfold scanCall at hcall; rw [hend, Bool.true_or, if_pos rfl] at hcall; cases hcall
  | failed D j er i hout hend herr rep next =>
    unfold scanCall at hcall; rw [hend, herr, if_pos (by rfl)] at hcall; cases hcall
  | going D i hout hend herr next rel bad =>
    have hsafe := nextToken_reported inputOf_badOk next (f := f) (by omega)
    have hkeep := nextToken_keeps f st.scanner i
    unfold pw at hsafe hkeep
    have hub : (nextToken f st.scanner).run i ≠ .error .ub := by
      intro hu; rw [hu] at hsafe; exact hsafe
    unfold scanCall at hcall ⊢
    rw [if_neg (by rw [hend, herr]; simp)] at hcall ⊢
    rcases runR_refines o (nextToken f st.scanner) st.input i rel hub with
      ⟨er, h1, h2⟩ | ⟨er, h1, h2⟩ | ⟨⟨t', s'⟩, i', st', h1, h2, h3⟩
    · have h1' : onReader o (nextToken f) st.scanner st.input = .error er := h1
      rw [h1'] at hcall; cases hcall
    · have h2' : onReader o (nextToken f) st.scanner st.input = .error er := h2
      rw [h2'] at hcall; cases hcall
    · have h2' : onReader o (nextToken f) st.scanner st.input = .ok ((t', s'), st') := h2
      rw [h2'] at hcall ⊢
      cases hcall
      rw [h1] at hkeep
      rcases hkeep k hk with ⟨g1, g2⟩ | g
      · have hp := g1.2.1
        exact .inl ⟨g1, by
          simp only [SimpleKey.stale, hp, Bool.true_and, Bool.or_eq_false_iff, decide_eq_false_iff_not] at g2
          show s'.mark.line ≤ _ ∧ s'.mark.index ≤ _
          omega⟩
      · exact .inr g

/-- In `a: 1⏎b⏎c` the key `b` is required and lost at the line break: an error. -/
example : ((scanRun (fun _ => some 2) 30 (scanStart none [97, 58, 32, 49, 10, 98, 10, 99]) 7).2.error) =
    some (.scanner (some "while scanning a simple key") { index := 5, line := 1, column := 0 } "could not find expected ':'"
      { index := 7, line := 2, column := 0 }) := by decide +kernel

/-! ### C22, C23 -/

/-- **C22.** No call looks at or consumes a character that has not been requested and buffered, or that lies behind the
end marker; every failure is an error reported to the caller. -/
theorem C22_never_beyond_buffered_input (o : Oracle) (enc : Option Enc) (bytes : List UInt8)
    (hsize : bytes.length < maxFileSize) (f : Nat) (hf : bytes.length + 3 < f) (k : Nat) (er : Fail)
    (h : (scanRun o f (scanStart enc bytes) k).2.error = some er) : er ≠ .ub ∧ er ≠ .fuel := by
  obtain ⟨good, tail, hs⟩ := exists_split (chosen enc bytes).1 (chosen enc bytes).2
  cases scan_inv (o := o) hsize hs hf k with
  | going D i hout _ herr next _ _ => rw [h] at herr; cases herr
  | ended D j hout _ herr final _ => rw [h] at herr; cases herr
  | failed D j er' i hout _ herr rep next =>
    rw [h] at herr; cases herr
    exact ⟨fun h => by subst h; exact rep.1, fun h => by subst h; exact rep.1⟩

/-- **C22** on the level of requests: over a list of characters ending in NUL, where only the characters announced by
`CACHE` may be looked at (`In.look`, `In.skip`), one call in a state between two calls never goes wrong. -/
theorem C22_only_requested_characters (T : List Nat) (e : Option Fail) (hb : BadOk e) (D : List Token) (s : Scanner) (i : In)
    (h : Next T e D s i) (f : Nat) (hf : T.length + 2 < f) :
    (nextToken f s).run i ≠ .error .ub ∧ (nextToken f s).run i ≠ .error .fuel := by
  have := nextToken_reported hb h hf
  unfold pw at this
  constructor <;> intro hu <;> rw [hu] at this <;> exact this

example : Next [97, 0] none [] {} { cs := [97, 0] } :=
  .fresh rfl ⟨⟨⟨[], rfl, rfl, by rintro ⟨h, _⟩; cases h⟩, rfl, by simp, by simp⟩, rfl⟩

/-- A truncated escape sequence `"\x4` -/
example : ((scanRun (fun _ => some 2) 20 (scanStart none [34, 92, 120, 52]) 3).2.error.map fun e => match e with
    | .scanner _ _ p _ => p | _ => "") = some "did not find expected hexdecimal number" := by decide +kernel

theorem next_count {T : List Nat} {e : Option Fail} {D : List Token} {s : Scanner} {i : In} (h : Next T e D s i) :
    D.length ≤ 4 * T.length + 1 := by
  cases h with
  | fresh hD _ => subst hD; simp
  | running h =>
    have h1 := h.base.count
    have h2 := h.base.pos.index
    rw [List.length_append] at h1
    omega
  | ended h =>
    obtain ⟨A0, B, t, m, u, r, h1, hT, hm, _, _, _, h2⟩ := h.final.parts
    have : 1 ≤ s.tokens.length := by
      cases ht : s.tokens with
      | nil => exact absurd ht h.ne
      | cons _ _ => simp
    rw [List.length_append] at h2
    have : m.index ≤ T.length := by rw [hm, hT]; simp [markOf]
    omega

/-- **C23.** After at most `4 * n + 7` calls on `n` bytes of input the scanner has delivered STREAM-END or failed; hence
there are at most that many tokens. (Each call terminates: the modelled functions are total, and by `C22` the fuel of
their loops suffices.) -/
theorem C23_scanning_terminates (o : Oracle) (enc : Option Enc) (bytes : List UInt8) (hsize : bytes.length < maxFileSize)
    (f : Nat) (hf : bytes.length + 3 < f) :
    ((scanRun o f (scanStart enc bytes) (4 * bytes.length + 7)).2.ended = true ∨
      (scanRun o f (scanStart enc bytes) (4 * bytes.length + 7)).2.error.isSome = true) ∧
    ∀ k, ((scanRun o f (scanStart enc bytes) k).1.filter fun x => match x with | .token _ => true | _ => false).length ≤
      4 * bytes.length + 6 := by
  obtain ⟨good, tail, hs⟩ := exists_split (chosen enc bytes).1 (chosen enc bytes).2
  have hT := inputOf_length hs
  have hlen : ∀ k, (scanRun o f (scanStart enc bytes) k).1.length = k := by
    intro k
    induction k with
    | zero => rfl
    | succ k ih => simp [scanRun, ih]
  constructor
  · cases scan_inv (o := o) hsize hs hf (4 * bytes.length + 7) with
    | going D i hout _ herr next _ _ =>
      exfalso
      have := next_count next
      have h2 := hlen (4 * bytes.length + 7)
      rw [hout, List.length_map] at h2
      omega
    | ended D j hout hend herr final _ => exact .inl hend
    | failed D j er i hout hend herr _ next => exact .inr (by rw [herr]; rfl)
  · intro k
    have htok : ∀ D : List Token, (D.map ScanOut.token).filter (fun x => match x with | .token _ => true | _ => false) =
        D.map ScanOut.token := by
      intro D
      refine List.filter_eq_self.mpr fun x hx => ?_
      obtain ⟨t, _, rfl⟩ := List.mem_map.mp hx
      rfl
    have hno : ∀ j, (List.replicate j ScanOut.nothing).filter (fun x => match x with | .token _ => true | _ => false) = [] := by
      intro j
      refine List.filter_eq_nil_iff.mpr fun x hx => ?_
      rw [(List.mem_replicate.mp hx).2]; simp
    cases scan_inv (o := o) hsize hs hf k with
    | going D i hout _ herr next _ _ =>
      have := next_count next
      rw [hout, htok, List.length_map]; omega
    | ended D j hout hend herr final _ =>
      rw [hout, List.filter_append, htok, hno]
      obtain ⟨A0, B, t, m, u, r, h1, hTu, hm, _, _, _, h2⟩ := final.parts
      have : m.index < (inputOf enc bytes good tail).cs.length := by rw [hm, hTu]; simp [markOf]
      simp
      omega
    | failed D j er i hout hend herr _ next =>
      have := next_count next
      rw [hout, List.filter_append, htok]
      simp only [List.filter_cons, hno]
      simp
      omega

/-! ### C24 -/

/-- The position at the end of `good` if the scanner is not at the beginning of a line there: it moves to the next line. -/
def endMark (good : List Nat) : Mark :=
  { index := good.length, line := lineBreaks good + (if lastColumn good = 0 then 0 else 1), column := 0 }

theorem forceLine_markOf (u : List Nat) : forceLine (markOf u) = endMark u := by
  unfold forceLine endMark markOf
  simp only
  split <;> simp_all

/-- **C24.** For every token delivered, start and end are positions in the decoded text: the index is the number of
characters before it, the line the number of line breaks, the column the number of characters since the last one, never
between CR and LF; the end is not before the start, and no token starts before the one before it has ended. The only exception are STREAM-END and the
BLOCK-ENDs just before it, which lie at the end of the text, moved to a new line. -/
theorem C24_positions_exact (o : Oracle) (enc : Option Enc) (bytes : List UInt8) (hsize : bytes.length < maxFileSize)
    (f : Nat) (hf : bytes.length + 3 < f) (k : Nat) (good : List Nat) (tail : List UInt8)
    (hs : Split (chosen enc bytes).1 (chosen enc bytes).2 good tail) :
    ∃ D rest, (scanRun o f (scanStart enc bytes) k).1 = D.map .token ++ rest ∧ (∀ x ∈ rest, ∀ t, x ≠ .token t) ∧
      InOrder D ∧
      ∀ t ∈ D, (IsPos good t.start ∧ IsPos good t.stop ∧ t.start.index ≤ t.stop.index) ∨
        (tail = [] ∧ (t.data = .streamEnd ∨ t.data = .blockEnd) ∧ t.start = endMark good ∧ t.stop = endMark good) := by
  have hcs : (inputOf enc bytes good tail).cs = good ++ if tail = [] then [0] else [] := rfl
  have hno0 : ∀ c ∈ good, c ≠ 0 := fun c hc h0 => by
    have := hs.perm c hc
    subst h0
    revert this
    decide
  -- complete token lists
  have hfin : ∀ A, Final (inputOf enc bytes good tail).cs A → InOrder A ∧
      ∀ t ∈ A, (IsPos good t.start ∧ IsPos good t.stop ∧ t.start.index ≤ t.stop.index) ∨
        (tail = [] ∧ (t.data = .streamEnd ∨ t.data = .blockEnd) ∧ t.start = endMark good ∧ t.stop = endMark good) := by
    intro A h
    obtain ⟨A0, B, x, m, u, r, h1, hT, hm, htoks, hB, hx, _⟩ := h.parts
    have hz : tail = [] ∧ u = good := by
      by_cases ht : tail = []
      · refine ⟨ht, ?_⟩
        rw [hcs, if_pos ht] at hT
        have hle : u.length ≤ good.length := by
          have := congrArg List.length hT
          simp at this; omega
        rcases Nat.lt_or_ge u.length good.length with hlt | hge
        · exfalso
          have h0 : (good ++ [0])[u.length]? = some 0 := by rw [hT]; simp
          rw [List.getElem?_append_left hlt] at h0
          exact hno0 0 (List.mem_of_getElem? h0) rfl
        · have := congrArg (List.take good.length) hT
          rw [List.take_left, List.take_append_of_le_length hge, List.take_of_length_le hle] at this
          exact this.symm
      · exfalso
        rw [hcs, if_neg ht, List.append_nil] at hT
        exact hno0 0 (by rw [hT]; simp) rfl
    obtain ⟨ht, rfl⟩ := hz
    have hend : forceLine m = endMark u := by rw [hm, forceLine_markOf]
    have hmi : m.index = u.length := by rw [hm]; rfl
    rw [hend] at hB hx
    constructor
    · rw [h1]
      have : ∀ (A B : List Token), InOrder A → (∀ a ∈ A, a.stop.index ≤ u.length) →
          (∀ b ∈ B, b.start.index = u.length ∧ b.stop.index = u.length) →
          InOrder (A ++ B) := by
        intro A B ha hab hb
        unfold InOrder
        rw [List.pairwise_append]
        refine ⟨ha, ?_, fun a ha b hb' => by rw [(hb b hb').1]; exact hab a ha⟩
        rw [List.pairwise_iff_forall_sublist]
        intro a b hab
        have h1 := hb a (hab.subset (by simp))
        have h2 := hb b (hab.subset (by simp))
        omega
      rw [List.append_assoc]
      refine this A0 (B ++ [x]) htoks.order (fun a ha => ?_) (fun b hb => ?_)
      · have := htoks.marks a ha; omega
      · rcases List.mem_append.mp hb with hb | hb
        · rw [hB b hb]; exact ⟨rfl, rfl⟩
        · simp at hb; rw [hb, hx]; exact ⟨rfl, rfl⟩
    · intro t hmem
      rw [h1] at hmem
      rcases List.mem_append.mp hmem with hmem | hmem
      · rcases List.mem_append.mp hmem with hmem | hmem
        · have hk := htoks.marks t hmem
          rw [hcs] at hk
          exact .inl ⟨isPos_trim hk.1 (by omega), isPos_trim hk.2.1 (by omega), hk.2.2.1⟩
        · rw [hB t hmem]; exact .inr ⟨ht, .inr rfl, rfl, rfl⟩
      · simp at hmem; rw [hmem, hx]; exact .inr ⟨ht, .inl rfl, rfl, rfl⟩
  have hnext : ∀ D s i, Next (inputOf enc bytes good tail).cs (inputOf enc bytes good tail).bad D s i → InOrder D ∧
      ∀ t ∈ D, (IsPos good t.start ∧ IsPos good t.stop ∧ t.start.index ≤ t.stop.index) ∨
        (tail = [] ∧ (t.data = .streamEnd ∨ t.data = .blockEnd) ∧ t.start = endMark good ∧ t.stop = endMark good) := by
    intro D s i h
    cases h with
    | fresh hD _ => subst hD; exact ⟨by simp [InOrder], by simp⟩
    | running h =>
      have hk := h.base.toks
      refine ⟨(List.pairwise_append.mp hk.order).1, fun t ht => .inl ?_⟩
      have ht := hk.marks t (by simp [ht])
      have hidx : s.mark.index ≤ good.length := by
        obtain ⟨u, hu, hm, _⟩ := h.base.pos.path
        have hle : u.length + i.cs.length = (inputOf enc bytes good tail).cs.length := by rw [hu]; simp
        rw [hm]
        show u.length ≤ _
        by_cases htl : tail = []
        · have hends := h.base.pos.ends (by simp [inputOf, htl])
          have : 1 ≤ i.cs.length := by
            cases hc : i.cs with
            | nil => rw [hc] at hends; cases hends
            | cons _ _ => simp
          rw [hcs, if_pos htl] at hle
          simp at hle; omega
        · rw [hcs, if_neg htl] at hle
          simp at hle; omega
      rw [hcs] at ht
      exact ⟨isPos_trim ht.1 (by omega), isPos_trim ht.2.1 (by omega), ht.2.2.1⟩
    | ended h =>
      obtain ⟨k1, k2⟩ := hfin _ h.final
      exact ⟨(List.pairwise_append.mp k1).1, fun t ht => k2 t (by simp [ht])⟩
  cases scan_inv (o := o) hsize hs hf k with
  | going D i hout _ herr next _ _ =>
    exact ⟨D, [], by rw [hout]; simp, by simp, (hnext D _ _ next).1, (hnext D _ _ next).2⟩
  | ended D j hout hend herr final _ =>
    exact ⟨D, _, hout, by intro x hx t; rw [(List.mem_replicate.mp hx).2]; simp, (hfin D final).1, (hfin D final).2⟩
  | failed D j er i hout hend herr _ next =>
    refine ⟨D, _, hout, ?_, (hnext D _ _ next).1, (hnext D _ _ next).2⟩
    intro x hx t
    rcases List.mem_cons.mp hx with rfl | hx
    · simp
    · rw [(List.mem_replicate.mp hx).2]; simp

/-- `a`, CR LF, `- b`: the marks of the tokens. -/
example : ((scanRun (fun _ => some 2) 20 (scanStart none [45, 32, 97, 13, 10, 45, 32, 98]) 8).1.map fun x => match x with
      | .token t => (t.start.index, t.start.line, t.start.column) | _ => (99, 99, 99)) =
    [(0, 0, 0), (0, 0, 0), (0, 0, 0), (2, 0, 2), (5, 1, 0), (7, 1, 2), (8, 2, 0), (8, 2, 0)] := by decide +kernel
example : IsPos [45, 32, 97, 13, 10, 45, 32, 98] { index := 7, line := 1, column := 2 } :=
  ⟨[45, 32, 97, 13, 10, 45, 32], [98], rfl, by decide, by unfold NoCut; decide⟩

/-! ### C27 for `yaml_parser_scan` -/

/-- C27. Once a call of the scanner has failed, the error is recorded, and every later call delivers nothing and changes
nothing, whatever the handler does. -/
theorem C27_scan_errors_are_final {ι : Type} (run : SM Token → Scanner → ι → Except Fail ((Token × Scanner) × ι)) (f : Nat)
    {st st' : ScanSt ι} (h : scanCall run f st = (.failed, st')) :
    (∃ e, st'.error = some e ∧ run (nextToken f) st.scanner st.input = .error e) ∧
      ∀ (run' : SM Token → Scanner → ι → Except Fail ((Token × Scanner) × ι)) f', scanCall run' f' st' = (.nothing, st') := by
  unfold scanCall at h
  split at h
  · cases h
  · cases hr : run (nextToken f) st.scanner st.input with
    | ok r => rw [hr] at h; cases h
    | error e =>
      rw [hr] at h
      cases h
      refine ⟨⟨e, rfl, rfl⟩, fun run' f' => ?_⟩
      unfold scanCall
      rw [if_pos (by simp)]

/-- C27. The same after STREAM-END. -/
theorem C27_nothing_after_the_end {ι : Type} (run : SM Token → Scanner → ι → Except Fail ((Token × Scanner) × ι)) (f : Nat)
    {st st' : ScanSt ι} {t : Token} (h : scanCall run f st = (.token t, st')) (ht : t.data = .streamEnd) :
    ∀ (run' : SM Token → Scanner → ι → Except Fail ((Token × Scanner) × ι)) f', scanCall run' f' st' = (.nothing, st') := by
  unfold scanCall at h
  split at h
  · cases h
  · cases hr : run (nextToken f) st.scanner st.input with
    | error e => rw [hr] at h; cases h
    | ok r =>
      rw [hr] at h
      cases h
      intro run' f'
      unfold scanCall
      rw [if_pos (by simp [ht])]

/-- The input `@` fails. -/
example : (scanRun (fun _ => some 1) 20 (scanStart none [64]) 3).1.map (fun x => match x with
    | .token _ => 0 | .failed => 1 | .nothing => 2) = [0, 1, 2] := by decide +kernel

end LibYaml
