import Verif.Proofs.Dispatch
import Verif.Proofs.Tokens

/-! The invariant of the token-level part of the scanner. -/

namespace LibYaml

open Spec

/-! ### Rules -/

section rules
variable {α : Type} {E : Fail → Prop} {s : Scanner} {i : In}

theorem pw_lex {x : Lex α} {Q : α → Scanner → In → Prop}
    (h : pw x (fun a m i' => Q a { s with mark := m } i') E s.mark i) : pw (lex x) Q E s i := by
  unfold pw at *
  unfold lex
  rw [Prog.run_bind]
  cases hr : (x s.mark).run i with
  | error e => rw [hr] at h; exact h
  | ok p => rw [hr] at h; exact h

theorem pw_act {g : Scanner → Except Fail Scanner} {Q : Unit → Scanner → In → Prop}
    (hok : ∀ s', g s = .ok s' → Q () s' i) (her : ∀ er, g s = .error er → E er) : pw (act g) Q E s i := by
  unfold pw act
  cases hg : g s with
  | ok s' => exact hok s' hg
  | error er => exact her er hg

theorem pw_act_ok {g : Scanner → Except Fail Scanner} {s' : Scanner} {Q : Unit → Scanner → In → Prop} (hg : g s = .ok s')
    (hQ : Q () s' i) : pw (act g) Q E s i :=
  pw_act (fun s'' h => by rw [hg] at h; cases h; exact hQ) (fun er h => by rw [hg] at h; cases h)

end rules

/-! ### The marks of errors -/

/-- The end of the text, moved to a new line (scanner.c:1336-1341). -/
def AtEnd (T : List Nat) (x : Mark) : Prop := ∃ u r, T = u ++ 0 :: r ∧ x = forceLine (markOf u)

/-- A failure of the scanner: an error reported to the caller; if it is the scanner's own, the marks of context and problem
are positions in the text, or the problem is at its end. -/
def PointedErr (T : List Nat) (e : Option Fail) (er : Fail) : Prop :=
  er.reported ∧ ∀ c cm p pm, er = .scanner c cm p pm → SpotIn T e cm ∧ (SpotIn T e pm ∨ AtEnd T pm)

theorem Points.pointed {T : List Nat} {e : Option Fail} {m : Mark} {er : Fail} (h : Points T e m er) (hm : SpotIn T e m) : PointedErr T e er :=
  ⟨h.1, fun c cm p pm he => by obtain ⟨rfl, h2⟩ := h.2 c cm p pm he; exact ⟨hm, .inl h2⟩⟩

theorem pointed_memory {T : List Nat} {e : Option Fail} : PointedErr T e .memory := ⟨trivial, fun _ _ _ _ h => by cases h⟩

theorem pointed_scanner {T : List Nat} {e : Option Fail} {c : Option String} {p : String} {cm pm : Mark} (h1 : SpotIn T e cm)
    (h2 : SpotIn T e pm ∨ AtEnd T pm) : PointedErr T e (.scanner c cm p pm) :=
  ⟨trivial, fun _ _ _ _ h => by cases h; exact ⟨h1, h2⟩⟩

theorem pw_lexAt {T : List Nat} {e : Option Fail} {α : Type} {s : Scanner} {i : In} {x : Lex α} {Q : α → Scanner → In → Prop} (hm : SpotIn T e s.mark)
    (h : pw x (fun a m i' => Q a { s with mark := m } i') (Points T e s.mark) s.mark i) : pw (lex x) Q (PointedErr T e) s i :=
  pw_lex (pw_mono h (fun _ _ _ h => h) fun _ h => h.pointed hm)

/-! ### The invariant -/

/-- The tokens produced so far, up to the position `m`. -/
structure Toks (T : List Nat) (m : Mark) (A : List Token) : Prop where
  opened : Opened A
  order : InOrder A
  marks : ∀ t ∈ A, IsPos T t.start ∧ IsPos T t.stop ∧ t.start.index ≤ t.stop.index ∧ t.stop.index ≤ m.index

/-- A pending simple key points to a token that starts where the key starts, not yet delivered; or to the token that is
about to be added at `m`. -/
structure KeyOk (T : List Nat) (d : Nat) (m : Mark) (A : List Token) (k : SimpleKey) : Prop where
  lo : d ≤ k.tokenNumber
  pos : 1 ≤ k.tokenNumber
  path : IsPos T k.mark
  tok : (∃ t, A[k.tokenNumber]? = some t ∧ t.start = k.mark ∧ k.mark.index < m.index) ∨
    (k.tokenNumber = A.length ∧ k.mark = m)

/-- The key points to an existing token. -/
def Settled (A : List Token) (k : SimpleKey) : Prop := k.tokenNumber < A.length

/-- Upper levels point to later tokens. -/
def keyOrder (k k' : SimpleKey) : Prop := k.possible = true → k'.possible = true → k'.tokenNumber < k.tokenNumber

/-- The part of the invariant that holds inside a fetcher as well. `K` is how far the token count may be ahead. -/
structure Base (T : List Nat) (e : Option Fail) (D : List Token) (K : Nat) (s : Scanner) (i : In) : Prop where
  pos : At T e s.mark i
  started : s.startProduced = true
  parsed : s.tokensParsed = D.length
  levels : s.keys.length = s.flowLevel + 1
  nested : NestedColumns (s.indent :: s.indents)
  toks : Toks T s.mark (D ++ s.tokens)
  blocks : blockLevel 0 (D ++ s.tokens) = some s.indents.length
  count : (D ++ s.tokens).length + s.indents.length ≤ 4 * s.mark.index + K
  keys : ∀ k ∈ s.keys, k.possible = true → KeyOk T D.length s.mark (D ++ s.tokens) k
  sorted : s.keys.Pairwise keyOrder

/-- The invariant between fetches, from STREAM-START to STREAM-END. -/
structure Running (T : List Nat) (e : Option Fail) (D : List Token) (s : Scanner) (i : In) : Prop where
  base : Base T e D 1 s i
  settled : ∀ k ∈ s.keys, k.possible = true → Settled (D ++ s.tokens) k
  flow : flowDepth (D ++ s.tokens) = s.flowLevel
  served : KeysServed (D ++ s.tokens)

variable {T : List Nat} {e : Option Fail} {D : List Token} {K : Nat} {s : Scanner} {i : In}

local notation "safe" m:max Q:max s:max i:max => pw m Q (PointedErr T e) s i

theorem Toks.mono {m m' : Mark} {A : List Token} (h : Toks T m A) (hm : m.index ≤ m'.index) : Toks T m' A :=
  ⟨h.opened, h.order, fun t ht => by have := h.marks t ht; exact ⟨this.1, this.2.1, this.2.2.1, by omega⟩⟩

theorem Toks.snoc {m m' : Mark} {A : List Token} {t : Token} (h : Toks T m A) (hm : m.index ≤ t.start.index)
    (h1 : IsPos T t.start) (h2 : IsPos T t.stop) (h3 : t.start.index ≤ t.stop.index) (h4 : t.stop.index ≤ m'.index)
    (ht : isStreamTok t = false) : Toks T m' (A ++ [t]) := by
  refine ⟨opened_snoc h.opened ht, inOrder_snoc h.order fun x hx => ?_, fun x hx => ?_⟩
  · have := h.marks x hx; omega
  · rcases List.mem_append.mp hx with hx | hx
    · have := h.marks x hx; exact ⟨this.1, this.2.1, this.2.2.1, by omega⟩
    · simp at hx; subst hx; exact ⟨h1, h2, h3, h4⟩

/-- Append several zero-width tokens at the current position. -/
theorem Toks.appendAt {m : Mark} {A B : List Token} (h : Toks T m A) (hm : IsPos T m)
    (hB : ∀ t ∈ B, t.start = m ∧ t.stop = m ∧ isStreamTok t = false) : Toks T m (A ++ B) := by
  induction B generalizing A with
  | nil => simpa using h
  | cons t B ih =>
    obtain ⟨h1, h2, h3⟩ := hB t (by simp)
    have := ih (A := A ++ [t]) (h.snoc (by rw [h1]; exact Nat.le_refl _) (by rw [h1]; exact hm) (by rw [h2]; exact hm)
      (by rw [h1, h2]; exact Nat.le_refl _) (by rw [h2]; exact Nat.le_refl _) h3) (fun x hx => hB x (by simp [hx]))
    simpa using this

theorem KeyOk.append {d : Nat} {m m' : Mark} {A B : List Token} {k : SimpleKey} (h : KeyOk T d m A k) (hs : Settled A k)
    (hm : m.index ≤ m'.index) : KeyOk T d m' (A ++ B) k := by
  refine ⟨h.lo, h.pos, h.path, Or.inl ?_⟩
  rcases h.tok with ⟨t, h1, h2, h3⟩ | ⟨h1, _⟩
  · exact ⟨t, by rw [List.getElem?_append_left hs]; exact h1, h2, by omega⟩
  · unfold Settled at hs; omega

theorem KeyOk.settle {d : Nat} {m m' : Mark} {A : List Token} {t : Token} {k : SimpleKey} (h : KeyOk T d m A k)
    (ht : t.start = m) (hm : m.index < m'.index) : KeyOk T d m' (A ++ [t]) k ∧ Settled (A ++ [t]) k := by
  rcases h.tok with ⟨x, h1, h2, h3⟩ | ⟨h1, h2⟩
  · have hs : Settled A k := by
      unfold Settled
      exact (List.getElem?_eq_some_iff.mp h1).1
    exact ⟨h.append hs (by omega), by unfold Settled at *; simp; omega⟩
  · refine ⟨⟨h.lo, h.pos, h.path, Or.inl ⟨t, ?_, by rw [ht, h2], by rw [h2]; exact hm⟩⟩, ?_⟩
    · rw [h1]; simp
    · unfold Settled; simp; omega

theorem KeyOk.spot {d : Nat} {m : Mark} {A : List Token} {k : SimpleKey} (h : KeyOk T d m A k) (hm : SpotIn T e m) : SpotIn T e k.mark := by
  refine ⟨h.path, fun he => ?_⟩
  have := hm.2 he
  rcases h.tok with ⟨_, _, _, h3⟩ | ⟨_, h3⟩
  · omega
  · rw [h3]; exact this

theorem append_assoc' (D q : List Token) (t : Token) : D ++ (q ++ [t]) = (D ++ q) ++ [t] := by simp

/-- The end of a fetcher: the token is scanned and appended. -/
theorem Base.finish {m' : Mark} {i' : In} {t : Token} (h : Base T e D 4 s i) (hat : At T e m' i')
    (hlt : i'.cs.length < i.cs.length) (ht : Scanned T s.mark m' t) (hstr : isStreamTok t = false) (hbl : blockNeutral t)
    (hflow : flowDepth (D ++ (s.tokens ++ [t])) = s.flowLevel) (hserved : KeysServed (D ++ (s.tokens ++ [t]))) :
    Running T e D { s with mark := m', tokens := s.tokens ++ [t] } i' := by
  have hm : s.mark.index < m'.index := by have := h.pos.index; have := hat.index; omega
  refine ⟨⟨hat, h.started, h.parsed, h.levels, h.nested, ?_, ?_, ?_, ?_, h.sorted⟩, ?_, hflow, hserved⟩
  · show Toks T m' (D ++ (s.tokens ++ [t]))
    rw [append_assoc']
    exact h.toks.snoc (by rw [ht.start]; exact Nat.le_refl _) (by rw [ht.start]; exact h.pos.onPath) ht.path
      (by rw [ht.start]; exact ht.lo) ht.hi hstr
  · show blockLevel 0 (D ++ (s.tokens ++ [t])) = _
    rw [append_assoc', blockLevel_snoc_neutral hbl]; exact h.blocks
  · show (D ++ (s.tokens ++ [t])).length + s.indents.length ≤ 4 * m'.index + 1
    have := h.count
    rw [append_assoc', List.length_append]
    simp only [List.length_cons, List.length_nil]
    omega
  · intro k hk hp
    show KeyOk T D.length m' (D ++ (s.tokens ++ [t])) k
    rw [append_assoc']
    exact ((h.keys k hk hp).settle ht.start hm).1
  · intro k hk hp
    show Settled (D ++ (s.tokens ++ [t])) k
    rw [append_assoc']
    exact ((h.keys k hk hp).settle ht.start hm).2

theorem Base.mono {K' : Nat} (h : Base T e D K s i) (hK : K ≤ K') : Base T e D K' s i :=
  ⟨h.pos, h.started, h.parsed, h.levels, h.nested, h.toks, h.blocks, by have := h.count; omega, h.keys, h.sorted⟩

/-! ### Changing the keys -/

/-- Forget the top key. -/
theorem Base.forget {k : SimpleKey} {ks : List SimpleKey} (h : Base T e D K s i) (hk : s.keys = k :: ks) :
    Base T e D K { s with keys := { k with possible := false } :: ks } i := by
  refine ⟨h.pos, h.started, h.parsed, ?_, h.nested, h.toks, h.blocks, h.count, ?_, ?_⟩
  · have := h.levels; rw [hk] at this; exact this
  · intro k' hk' hp
    rcases List.mem_cons.mp hk' with rfl | hk'
    · cases hp
    · exact h.keys k' (by rw [hk]; simp [hk']) hp
  · have := h.sorted
    rw [hk] at this
    obtain ⟨_, h2⟩ := List.pairwise_cons.mp this
    exact List.pairwise_cons.mpr ⟨fun k' _ hp => (by cases hp), h2⟩

theorem sm_removeKey {Q : Unit → Scanner → In → Prop} (h : Base T e D K s i)
    (hQ : ∀ k ks, s.keys = k :: ks → (k.possible && k.required) = false →
      Base T e D K { s with keys := { k with possible := false } :: ks } i →
      Q () { s with keys := { k with possible := false } :: ks } i) : safe (act Scanner.removeKey) Q s i := by
  unfold Scanner.removeKey
  refine pw_act (fun s' hs => ?_) (fun er hs => ?_)
  all_goals
    cases hk : s.keys with
    | nil => have := h.levels; rw [hk] at this; simp at this
    | cons k ks =>
      rw [hk] at hs
      simp only at hs
      by_cases hr : (k.possible && k.required) = true
      · rw [if_pos hr] at hs; cases hs
        try exact pointed_scanner ((h.keys k (by rw [hk]; simp) (by revert hr; cases k.possible <;> simp)).spot h.pos.spot) (.inl h.pos.spot)
      · rw [if_neg hr] at hs; cases hs
        try exact hQ k ks hk (by simpa using hr) (h.forget hk)

theorem sm_allow {b : Bool} {Q : Unit → Scanner → In → Prop} (h : Base T e D K s i)
    (hQ : Base T e D K { s with allowed := b } i → Q () { s with allowed := b } i) : safe (act (Scanner.allow b)) Q s i :=
  pw_act_ok rfl (hQ ⟨h.pos, h.started, h.parsed, h.levels, h.nested, h.toks, h.blocks, h.count, h.keys, h.sorted⟩)

theorem Toks.ne_nil {m : Mark} {A : List Token} (h : Toks T m A) : 1 ≤ A.length := by
  obtain ⟨x, r, en, rfl, _⟩ := h.opened
  simp

/-- Save a key at the current position. -/
theorem Base.save {k : SimpleKey} {ks : List SimpleKey} {r : Bool} (h : Base T e D K s i)
    (hset : ∀ k ∈ s.keys, k.possible = true → Settled (D ++ s.tokens) k) (hk : s.keys = k :: ks) :
    Base T e D K { s with keys :=
      { possible := true, required := r, tokenNumber := s.tokensParsed + s.tokens.length, mark := s.mark } :: ks } i := by
  have hn : s.tokensParsed + s.tokens.length = (D ++ s.tokens).length := by rw [h.parsed]; simp
  refine ⟨h.pos, h.started, h.parsed, ?_, h.nested, h.toks, h.blocks, h.count, ?_, ?_⟩
  · have := h.levels; rw [hk] at this; exact this
  · intro k' hk' hp
    rcases List.mem_cons.mp hk' with rfl | hk'
    · refine ⟨?_, ?_, h.pos.onPath, Or.inr ⟨hn, rfl⟩⟩
      · show D.length ≤ s.tokensParsed + s.tokens.length
        rw [hn]; simp
      · show 1 ≤ s.tokensParsed + s.tokens.length
        rw [hn]; exact h.toks.ne_nil
    · exact h.keys k' (by rw [hk]; simp [hk']) hp
  · have := h.sorted
    rw [hk] at this
    obtain ⟨_, h2⟩ := List.pairwise_cons.mp this
    refine List.pairwise_cons.mpr ⟨fun k' hk' _ hp => ?_, h2⟩
    show k'.tokenNumber < s.tokensParsed + s.tokens.length
    rw [hn]
    exact hset k' (by rw [hk]; simp [hk']) hp

theorem sm_saveKey {Q : Unit → Scanner → In → Prop} (h : Base T e D K s i)
    (hset : ∀ k ∈ s.keys, k.possible = true → Settled (D ++ s.tokens) k)
    (hQ : ∀ ks, Base T e D K { s with keys := ks } i → Q () { s with keys := ks } i) : safe (act Scanner.saveKey) Q s i := by
  unfold Scanner.saveKey
  by_cases ha : s.allowed = true
  · refine pw_act (fun s' hs => ?_) (fun er hs => ?_)
    all_goals
      rw [if_pos ha] at hs
      unfold Scanner.removeKey at hs
      cases hk : s.keys with
      | nil => have := h.levels; rw [hk] at this; simp at this
      | cons k ks =>
        rw [hk] at hs
        simp only at hs
        by_cases hr : (k.possible && k.required) = true
        · rw [if_pos hr] at hs; cases hs
          try exact pointed_scanner ((h.keys k (by rw [hk]; simp) (by revert hr; cases k.possible <;> simp)).spot h.pos.spot) (.inl h.pos.spot)
        · rw [if_neg hr] at hs; cases hs
          try exact hQ _ (h.save hset hk)
  · exact pw_act_ok (by rw [if_neg ha]) (hQ s.keys h)

/-- scanner.c:1069-1090: what the loop does to one key. -/
def dropStale (m : Mark) (k : SimpleKey) : SimpleKey := if k.stale m then { k with possible := false } else k

theorem staleKeys_ok {m : Mark} {ks ks' : List SimpleKey} (h : staleKeys m ks = .ok ks') :
    ks' = ks.map (dropStale m) ∧ ∀ k ∈ ks, k.stale m = true → k.required = false := by
  induction ks generalizing ks' with
  | nil => cases h; exact ⟨rfl, by simp⟩
  | cons k ks ih =>
    simp only [staleKeys] at h
    cases hr : staleKeys m ks with
    | error er => rw [hr] at h; cases h
    | ok ks1 =>
      rw [hr] at h
      simp only at h
      obtain ⟨rfl, h2⟩ := ih hr
      by_cases hs : k.stale m = true
      · rw [if_pos hs] at h
        by_cases hq : k.required = true
        · rw [if_pos hq] at h; cases h
        · rw [if_neg hq] at h; cases h
          refine ⟨by simp [dropStale, hs], fun k' hk' hs' => ?_⟩
          rcases List.mem_cons.mp hk' with rfl | hk'
          · simpa using hq
          · exact h2 k' hk' hs'
      · rw [if_neg hs] at h; cases h
        refine ⟨by simp [dropStale, hs], fun k' hk' hs' => ?_⟩
        rcases List.mem_cons.mp hk' with rfl | hk'
        · exact absurd hs' hs
        · exact h2 k' hk' hs'

theorem staleKeys_error {m : Mark} {ks : List SimpleKey} {er : Fail} (h : staleKeys m ks = .error er)
    (hm : SpotIn T e m ∨ AtEnd T m) (hk : ∀ k ∈ ks, k.possible = true → SpotIn T e k.mark) : PointedErr T e er := by
  induction ks with
  | nil => cases h
  | cons k ks ih =>
    simp only [staleKeys] at h
    cases hr : staleKeys m ks with
    | error er' => rw [hr] at h; cases h; exact ih hr fun k' hk' => hk k' (by simp [hk'])
    | ok ks1 =>
      rw [hr] at h
      simp only at h
      by_cases hs : k.stale m = true
      · rw [if_pos hs] at h
        by_cases hq : k.required = true
        · rw [if_pos hq] at h; cases h
          exact pointed_scanner (hk k (by simp) (by unfold SimpleKey.stale at hs; revert hs; cases k.possible <;> simp)) hm
        · rw [if_neg hq] at h; cases h
      · rw [if_neg hs] at h; cases h

theorem dropStale_possible {m : Mark} {k : SimpleKey} (h : (dropStale m k).possible = true) :
    dropStale m k = k ∧ k.possible = true ∧ k.stale m = false := by
  unfold dropStale at *
  by_cases hs : k.stale m = true
  · rw [if_pos hs] at h; cases h
  · rw [if_neg hs] at h ⊢; exact ⟨rfl, h, by simpa using hs⟩

/-- Keys that are still possible after the stale ones are dropped. -/
theorem mem_dropStale {m : Mark} {ks : List SimpleKey} {k : SimpleKey} (hk : k ∈ ks.map (dropStale m)) (hp : k.possible = true) :
    k ∈ ks ∧ k.stale m = false := by
  obtain ⟨k0, h0, rfl⟩ := List.mem_map.mp hk
  obtain ⟨h1, h2, h3⟩ := dropStale_possible hp
  rw [h1]
  exact ⟨h0, h3⟩

theorem Base.stale (h : Base T e D K s i) : Base T e D K { s with keys := s.keys.map (dropStale s.mark) } i := by
  refine ⟨h.pos, h.started, h.parsed, by simpa using h.levels, h.nested, h.toks, h.blocks, h.count, ?_, ?_⟩
  · intro k hk hp
    exact h.keys k (mem_dropStale hk hp).1 hp
  · refine List.pairwise_map.mpr (h.sorted.imp ?_)
    intro a b hab ha hb
    rw [(dropStale_possible ha).1, (dropStale_possible hb).1]
    exact hab (dropStale_possible ha).2.1 (dropStale_possible hb).2.1

theorem sm_stale {Q : Unit → Scanner → In → Prop} (h : Base T e D K s i)
    (hQ : (∀ k ∈ s.keys, k.stale s.mark = true → k.required = false) →
      Q () { s with keys := s.keys.map (dropStale s.mark) } i) : safe (act Scanner.stale) Q s i := by
  unfold Scanner.stale
  refine pw_act (fun s' hs => ?_) (fun er hs => ?_)
  · cases hr : staleKeys s.mark s.keys with
    | error er => rw [hr] at hs; cases hs
    | ok ks =>
      rw [hr] at hs; cases hs
      obtain ⟨rfl, h2⟩ := staleKeys_ok hr
      exact hQ h2
  · cases hr : staleKeys s.mark s.keys with
    | error er => rw [hr] at hs; cases hs; exact staleKeys_error hr (.inl h.pos.spot) fun k hk hp => (h.keys k hk hp).spot h.pos.spot
    | ok ks => rw [hr] at hs; cases hs

/-! ### Flow levels -/

theorem Base.pushKey (h : Base T e D K s i) :
    Base T e D K { s with keys := {} :: s.keys, flowLevel := s.flowLevel + 1 } i := by
  refine ⟨h.pos, h.started, h.parsed, by simpa using h.levels, h.nested, h.toks, h.blocks, h.count, ?_, ?_⟩
  · intro k hk hp
    rcases List.mem_cons.mp hk with rfl | hk
    · cases hp
    · exact h.keys k hk hp
  · exact List.pairwise_cons.mpr ⟨fun _ _ hp => (by cases hp), h.sorted⟩

theorem Base.popKey {k : SimpleKey} {ks : List SimpleKey} {l : Nat} (h : Base T e D K s i) (hk : s.keys = k :: ks)
    (hl : s.flowLevel = l + 1) : Base T e D K { s with keys := ks, flowLevel := l } i := by
  refine ⟨h.pos, h.started, h.parsed, ?_, h.nested, h.toks, h.blocks, h.count, ?_, ?_⟩
  · have := h.levels; rw [hk, hl] at this; simpa using this
  · intro k' hk' hp; exact h.keys k' (by rw [hk]; simp [hk']) hp
  · have := h.sorted; rw [hk] at this; exact (List.pairwise_cons.mp this).2

theorem sm_increaseFlow {Q : Unit → Scanner → In → Prop} (h : Base T e D K s i)
    (hQ : Base T e D K { s with keys := {} :: s.keys, flowLevel := s.flowLevel + 1 } i →
      Q () { s with keys := {} :: s.keys, flowLevel := s.flowLevel + 1 } i) : safe (act Scanner.increaseFlow) Q s i := by
  unfold Scanner.increaseFlow
  by_cases hm : s.flowLevel = maxInt
  · exact pw_act (fun s' hs => by rw [if_pos hm] at hs; cases hs) (fun er hs => by rw [if_pos hm] at hs; cases hs; exact pointed_memory)
  · exact pw_act_ok (by rw [if_neg hm]) (hQ h.pushKey)

theorem sm_decreaseFlow {Q : Unit → Scanner → In → Prop} (h : Base T e D K s i)
    (hQ : ∀ ks, Base T e D K { s with keys := ks, flowLevel := s.flowLevel - 1 } i →
      Q () { s with keys := ks, flowLevel := s.flowLevel - 1 } i) : safe (act Scanner.decreaseFlow) Q s i := by
  unfold Scanner.decreaseFlow
  cases hl : s.flowLevel with
  | zero =>
    refine pw_act_ok (s' := s) (by rw [hl]) ?_
    have := hQ s.keys
    rw [hl] at this
    have hs : { s with keys := s.keys, flowLevel := 0 - 1 } = s := by
      cases s; simp only at hl; subst hl; rfl
    rw [hs] at this
    exact this h
  | succ l =>
    cases hk : s.keys with
    | nil => have := h.levels; rw [hk] at this; simp at this
    | cons k ks =>
      refine pw_act_ok (s' := { s with keys := ks, flowLevel := l }) (by rw [hl, hk]) ?_
      have := hQ ks
      rw [hl] at this
      exact this (h.popKey hk hl)

/-! ### Indentation -/

theorem opens_of {t : Token} (h : t.data = .blockSequenceStart ∨ t.data = .blockMappingStart) : opensBlock t = true := by
  unfold opensBlock; rcases h with h | h <;> rw [h] <;> rfl

/-- A BLOCK-END at `m` for each of the given columns. -/
def endToks (m : Mark) (pre : List Int) : List Token := pre.map fun _ => { data := .blockEnd, start := m, stop := m }

theorem endToks_length {m : Mark} {pre : List Int} : (endToks m pre).length = pre.length := by simp [endToks]

theorem mem_endToks {m : Mark} {pre : List Int} {t : Token} (h : t ∈ endToks m pre) :
    t = { data := .blockEnd, start := m, stop := m } := by
  unfold endToks at h; simp at h; exact h.2.symm

/-- The loop of `yaml_parser_unroll_indent` removes exactly the columns greater than `column`, with a BLOCK-END each. -/
theorem unrollLoop_spec {column : Int} {mark : Mark} {ind : Int} {inds : List Int} {q : List Token}
    (h : NestedColumns (ind :: inds)) (hc : -1 ≤ column) :
    ∃ pre ind' inds', ind :: inds = pre ++ ind' :: inds' ∧ (∀ x ∈ pre, column < x) ∧ ind' ≤ column ∧
      NestedColumns (ind' :: inds') ∧
      unrollLoop column mark ind inds q =
        .ok (ind', inds', q ++ endToks mark pre) := by
  induction inds generalizing ind q with
  | nil =>
    have hi : ind = -1 := h
    refine ⟨[], ind, [], rfl, by simp, by omega, h, ?_⟩
    unfold unrollLoop
    rw [if_neg (by omega)]
    simp [endToks]
  | cons j js ih =>
    by_cases hgt : ind > column
    · obtain ⟨pre, ind', inds', h1, h2, h3, h4, h5⟩ := ih (ind := j) (q := q ++ [{ data := .blockEnd, start := mark, stop := mark }]) h.2
      refine ⟨ind :: pre, ind', inds', by rw [h1]; rfl, ?_, h3, h4, ?_⟩
      · intro x hx
        rcases List.mem_cons.mp hx with rfl | hx
        · exact hgt
        · exact h2 x hx
      · unfold unrollLoop
        rw [if_pos hgt, h5]
        simp [endToks]
    · refine ⟨[], ind, j :: js, rfl, by simp, by omega, h, ?_⟩
      unfold unrollLoop
      rw [if_neg hgt]
      simp [endToks]

/-- Append BLOCK-ENDs at the current position while popping as many columns. -/
theorem Base.unroll {pre : List Int} {ind : Int} {inds : List Int} (h : Base T e D K s i)
    (hset : ∀ k ∈ s.keys, k.possible = true → Settled (D ++ s.tokens) k)
    (hp : s.indent :: s.indents = pre ++ ind :: inds) (hn : NestedColumns (ind :: inds)) :
    Base T e D K { s with indent := ind, indents := inds, tokens :=
      (s.tokens ++ endToks s.mark pre) } i := by
  have hl : s.indents.length = pre.length + inds.length := by
    have := congrArg List.length hp
    simp at this; omega
  generalize hB : endToks s.mark pre = B
  have hBl : B.length = pre.length := by rw [← hB]; exact endToks_length
  have hBm : ∀ t ∈ B, t = { data := .blockEnd, start := s.mark, stop := s.mark } := by
    intro t ht; rw [← hB] at ht; exact mem_endToks ht
  have happ : D ++ (s.tokens ++ B) = (D ++ s.tokens) ++ B := by simp
  refine ⟨h.pos, h.started, h.parsed, h.levels, hn, ?_, ?_, ?_, ?_, h.sorted⟩
  · show Toks T s.mark (D ++ (s.tokens ++ B))
    rw [happ]
    exact h.toks.appendAt h.pos.onPath fun t ht => by rw [hBm t ht]; exact ⟨rfl, rfl, rfl⟩
  · show blockLevel 0 (D ++ (s.tokens ++ B)) = some inds.length
    rw [happ, blockLevel_append, h.blocks]
    simp only [Option.bind_some]
    rw [hl, ← hBl]
    exact blockLevel_ends fun t ht => by rw [hBm t ht]
  · show (D ++ (s.tokens ++ B)).length + inds.length ≤ 4 * s.mark.index + K
    have := h.count
    rw [happ, List.length_append, hBl]
    omega
  · intro k hk hpos
    show KeyOk T D.length s.mark (D ++ (s.tokens ++ B)) k
    rw [happ]
    exact (h.keys k hk hpos).append (hset k hk hpos) (Nat.le_refl _)

/-- What is known when a token is about to be fetched. -/
structure Prepared (T : List Nat) (e : Option Fail) (D : List Token) (s : Scanner) (i : In) : Prop where
  run : Running T e D s i
  fresh : ∀ k ∈ s.keys, k.possible = true → s.mark.line ≤ k.mark.line ∧ s.mark.index ≤ k.mark.index + 1024
  margin : s.flowLevel = 0 → s.indent ≤ s.mark.column

theorem Running.unroll {pre : List Int} {ind : Int} {inds : List Int} (h : Running T e D s i)
    (hp : s.indent :: s.indents = pre ++ ind :: inds) (hn : NestedColumns (ind :: inds)) :
    Running T e D { s with indent := ind, indents := inds, tokens :=
      (s.tokens ++ endToks s.mark pre) } i := by
  have hBm : ∀ t ∈ endToks s.mark pre, t.data = .blockEnd := by
    intro t ht; rw [mem_endToks ht]
  refine ⟨h.base.unroll h.settled hp hn, ?_, ?_, ?_⟩
  · intro k hk hpos
    have := h.settled k hk hpos
    unfold Settled at *
    simp at this ⊢; omega
  · show flowDepth (D ++ (s.tokens ++ _)) = _
    rw [← List.append_assoc, flowDepth_ends hBm]; exact h.flow
  · show KeysServed (D ++ (s.tokens ++ _))
    rw [← List.append_assoc]
    refine served_append h.served ?_
    generalize hB : endToks s.mark pre = B at hBm
    clear hB
    induction B with
    | nil => trivial
    | cons t B ih =>
      refine ⟨fun hk => ?_, ih fun x hx => hBm x (by simp [hx])⟩
      have := hBm t (by simp)
      rw [hk.1] at this; cases this

/-- `yaml_parser_unroll_indent` before STREAM-END. -/
theorem sm_unrollIndent {column : Int} {Q : Unit → Scanner → In → Prop} (h : Running T e D s i) (hc : -1 ≤ column)
    (hQ0 : s.flowLevel ≠ 0 → Q () s i)
    (hQ : ∀ pre ind inds, s.flowLevel = 0 → s.indent :: s.indents = pre ++ ind :: inds → (∀ x ∈ pre, column < x) → ind ≤ column →
      NestedColumns (ind :: inds) →
      Q () { s with indent := ind, indents := inds, tokens :=
        (s.tokens ++ endToks s.mark pre) } i) :
    safe (act (Scanner.unrollIndent column)) Q s i := by
  unfold Scanner.unrollIndent
  by_cases hf : s.flowLevel = 0
  · obtain ⟨pre, ind', inds', h1, h2, h3, h4, h5⟩ := unrollLoop_spec (mark := s.mark) (q := s.tokens) h.base.nested hc
    refine pw_act_ok ?_ (hQ pre ind' inds' hf h1 h2 h3 h4)
    rw [if_neg (by simp [hf]), h5]
  · exact pw_act_ok (by rw [if_pos hf]) (hQ0 hf)

theorem opened_length {A : List Token} (h : Opened A) : 1 ≤ A.length := by
  obtain ⟨x, r, en, rfl, _⟩ := h; simp

/-- Start a block collection at the current position. -/
theorem Base.roll {data : TokData} (h : Base T e D K s i) (hset : ∀ k ∈ s.keys, k.possible = true → Settled (D ++ s.tokens) k)
    (hd : data = .blockSequenceStart ∨ data = .blockMappingStart) (hlt : s.indent < s.mark.column) :
    Base T e D (K + 2) { s with indents := s.indent :: s.indents, indent := s.mark.column, tokens :=
      s.tokens ++ [{ data := data, start := s.mark, stop := s.mark }] } i := by
  have happ : ∀ t : Token, D ++ (s.tokens ++ [t]) = (D ++ s.tokens) ++ [t] := by simp
  refine ⟨h.pos, h.started, h.parsed, h.levels, ⟨hlt, h.nested⟩, ?_, ?_, ?_, ?_, h.sorted⟩
  · show Toks T s.mark (D ++ (s.tokens ++ [_]))
    rw [happ]
    refine h.toks.appendAt h.pos.onPath fun t ht => ?_
    simp at ht; subst ht
    exact ⟨rfl, rfl, by rcases hd with rfl | rfl <;> rfl⟩
  · show blockLevel 0 (D ++ (s.tokens ++ [_])) = some (s.indents.length + 1)
    rw [happ]
    have := blockLevel_insert_start (a := D ++ s.tokens) (b := []) (t := { data := data, start := s.mark, stop := s.mark })
      (by simpa using h.blocks) (opens_of hd)
    exact this
  · show (D ++ (s.tokens ++ [_])).length + (s.indents.length + 1) ≤ 4 * s.mark.index + (K + 2)
    have := h.count
    rw [happ, List.length_append]
    simp only [List.length_cons, List.length_nil]
    omega
  · intro k hk hpos
    show KeyOk T D.length s.mark (D ++ (s.tokens ++ [_])) k
    rw [happ]
    exact (h.keys k hk hpos).append (hset k hk hpos) (Nat.le_refl _)

theorem flowStep_neutral {t : Token} (h : t.data = .blockSequenceStart ∨ t.data = .blockMappingStart ∨ t.data = .key) (n : Nat) :
    flowStep n t = n := by
  unfold flowStep; rcases h with h | h | h <;> rw [h]

/-- `startBlock`: one of the three places where a block collection starts at the current token. -/
theorem sm_startBlock {data : TokData} {problem : String} {Q : Unit → Scanner → In → Prop} (h : Running T e D s i)
    (hd : data = .blockSequenceStart ∨ data = .blockMappingStart)
    (hQ : ∀ ind inds q, Base T e D 3 { s with indent := ind, indents := inds, tokens := q } i →
      (∀ k ∈ s.keys, k.possible = true → Settled (D ++ q) k) → flowDepth (D ++ q) = s.flowLevel → KeysServed (D ++ q) →
      Q () { s with indent := ind, indents := inds, tokens := q } i) :
    safe (act (startBlock data problem)) Q s i := by
  unfold startBlock
  have hsame : Q () s i := hQ s.indent s.indents s.tokens (h.base.mono (by omega)) h.settled h.flow h.served
  by_cases hf : s.flowLevel = 0
  · by_cases ha : s.allowed = true
    · unfold Scanner.rollIndent Scanner.enqueue
      by_cases hlt : s.indent < s.mark.column
      · by_cases hbig : s.mark.column > maxInt
        · refine pw_act (fun s' hs => ?_) (fun er hs => ?_) <;>
            rw [if_pos hf, if_pos ha, if_neg (by simp [hf]), if_pos hlt, if_pos hbig] at hs <;> cases hs
          exact pointed_memory
        · refine pw_act_ok (by rw [if_pos hf, if_pos ha, if_neg (by simp [hf]), if_pos hlt, if_neg hbig]) ?_
          have happ : ∀ t : Token, D ++ (s.tokens ++ [t]) = (D ++ s.tokens) ++ [t] := by simp
          refine hQ _ _ _ (h.base.roll h.settled hd hlt) ?_ ?_ ?_
          · intro k hk hp
            have := h.settled k hk hp
            unfold Settled at *
            simp at this ⊢; omega
          · rw [happ, flowDepth_snoc, flowStep_neutral (by rcases hd with rfl | rfl <;> simp)]
            exact h.flow
          · rw [happ]
            refine served_snoc h.served ?_
            rintro ⟨hk, _⟩
            rcases hd with rfl | rfl <;> cases hk
      · exact pw_act_ok (by rw [if_pos hf, if_pos ha, if_neg (by simp [hf]), if_neg hlt]) hsame
    · refine pw_act (fun s' hs => ?_) (fun er hs => ?_) <;> rw [if_pos hf, if_neg ha] at hs <;> cases hs
      exact pointed_scanner h.base.pos.spot (.inl h.base.pos.spot)
  · exact pw_act_ok (by rw [if_neg hf]) hsame

end LibYaml
