import Verif.Proofs.Eager
import Verif.Props.BlockRoundTrip
import Verif.Props.TagRoundTrip

/-!
# The scanner at the boundaries of tokens

`Raw`: a run of `yaml_parser_fetch_next_token` over a text has come to a position between two tokens. `Bd`: the white space and line
breaks in front of the next token are skipped as well. What matters of the state of the scanner is a `View`. For each kind of token
there is a lemma that leads from `Bd` to `Raw`.
-/

namespace LibYaml

open Spec

/-! ### Scanner actions over characters -/

theorem lw_lex {α : Type} {x : Lex α} {Q : α → Scanner → Text → Prop} {s : Scanner} {cs : Text} :
    lw (lex x) Q s cs ↔ lw x (fun a m cs' => Q a { s with mark := m } cs') s.mark cs := by
  unfold lw lex
  rw [go_bind]
  cases (x s.mark).go cs with
  | error e => exact Iff.rfl
  | ok p => exact Iff.rfl

theorem lw_act {g : Scanner → Except Fail Scanner} {Q : Unit → Scanner → Text → Prop} {s s' : Scanner} {cs : Text} (hg : g s = .ok s') :
    lw (act g) Q s cs ↔ Q () s' cs := by
  unfold lw act
  rw [hg]
  exact Iff.rfl

/-- The result of a program over characters is the result of its run. -/
theorem lw_of_run {σ α : Type} {p : StateT σ Prog α} {s s' : σ} {i i' : In} {a : α} (hb : i.bad = none) (h : (p s).run i = .ok ((a, s'), i'))
    {Q : α → σ → Text → Prop} (hQ : Q a s' i'.cs) : lw p Q s i.cs := by
  rw [lw_iff]
  refine ⟨a, s', i'.cs, ?_, hQ⟩
  rw [go_of_run _ _ hb (by rw [h]; intro h; cases h), h]
  rfl

/-- Safety carries over to programs over characters. -/
theorem lw_and {σ α : Type} {p : StateT σ Prog α} {s : σ} {i : In} {R : α → σ → In → Prop} {Q : α → σ → Text → Prop} (hb : i.bad = none)
    (hs : pw p R Fail.reported s i) (hl : lw p Q s i.cs) :
    ∃ a s' i', (p s).run i = .ok ((a, s'), i') ∧ Q a s' i'.cs ∧ R a s' i' := by
  unfold pw at hs
  have hub : (p s).run i ≠ .error .ub := by
    intro h
    rw [h] at hs
    exact hs.elim
  have hg := go_of_run (p s) i hb hub
  rw [lw_iff] at hl
  obtain ⟨a, m', cs', h1, h2⟩ := hl
  rw [h1] at hg
  cases hr : (p s).run i with
  | error e => rw [hr] at hg; cases hg
  | ok x =>
    obtain ⟨⟨b, m2⟩, i2⟩ := x
    rw [hr] at hg hs
    cases hg
    exact ⟨_, _, i2, rfl, h2, hs⟩

/-! ### What matters of the state -/

/-- What is known of a simple key: it is not possible; it is not required and not behind the line; or everything. -/
inductive KS
  | off
  | calm (line : Nat)
  | on (number : Nat) (at_ : Text) (req : Bool)

def KS.Ok : KS → SimpleKey → Prop
  | .off, k => k.possible = false
  | .calm l, k => k.possible = true → k.required = false ∧ k.mark.line ≤ l
  | .on n u r, k => k = { possible := true, required := r, tokenNumber := n, mark := markOf u }

/-- The key may be dropped. -/
def KS.free : KS → Prop
  | .on _ _ true => False
  | _ => True

def KeysOk : List KS → List SimpleKey → Prop
  | [], [] => True
  | a :: as, k :: ks => a.Ok k ∧ KeysOk as ks
  | _, _ => False

/-- What matters of the state of the scanner: the tokens, the columns of the block collections, the flow level, the simple keys and
whether a simple key is allowed. -/
structure View where
  ds : List TokData
  ind : Int
  inds : List Int
  flow : Nat
  ks : List KS
  al : Bool

structure Sees (v : View) (s : Scanner) : Prop where
  ds : s.tokens.map Token.data = v.ds
  ind : s.indent = v.ind
  inds : s.indents = v.inds
  flow : s.flowLevel = v.flow
  al : s.allowed = v.al
  ks : KeysOk v.ks s.keys

def View.depth (v : View) : Nat := v.inds.length + v.flow

/-- Close the block collections behind the column `c`. -/
def unrollV (c : Int) : Int → List Int → List TokData → Int × List Int × List TokData
  | ind, [], ds => (ind, [], ds)
  | ind, i :: is, ds => if ind > c then unrollV c i is (ds ++ [.blockEnd]) else (ind, i :: is, ds)

def View.unroll (c : Int) (v : View) : View :=
  if v.flow ≠ 0 then v
  else { v with
    ind := (unrollV c v.ind v.inds v.ds).1
    inds := (unrollV c v.ind v.inds v.ds).2.1
    ds := (unrollV c v.ind v.inds v.ds).2.2 }

theorem unrollV_id {c ind : Int} {inds : List Int} {ds : List TokData} (h : ind ≤ c) : unrollV c ind inds ds = (ind, inds, ds) := by
  cases inds with
  | nil => rfl
  | cons i is => unfold unrollV; rw [if_neg (by omega)]

theorem unrollV_twice {c d : Int} (h : c ≤ d) : ∀ {ind : Int} {inds : List Int} {ds : List TokData},
    unrollV c (unrollV d ind inds ds).1 (unrollV d ind inds ds).2.1 (unrollV d ind inds ds).2.2 = unrollV c ind inds ds := by
  intro ind inds
  induction inds generalizing ind with
  | nil => intro ds; rfl
  | cons i is ih =>
    intro ds
    by_cases h1 : ind > d
    · have e1 : unrollV d ind (i :: is) ds = unrollV d i is (ds ++ [.blockEnd]) := by
        show (if ind > d then _ else _) = _
        rw [if_pos h1]
      have e2 : unrollV c ind (i :: is) ds = unrollV c i is (ds ++ [.blockEnd]) := by
        show (if ind > c then _ else _) = _
        rw [if_pos (by omega)]
      rw [e1, e2]; exact ih
    · have e1 : unrollV d ind (i :: is) ds = (ind, i :: is, ds) := by
        show (if ind > d then _ else _) = _
        rw [if_neg h1]
      rw [e1]

theorem View.unroll_id {c : Int} {v : View} (h : v.ind ≤ c) : v.unroll c = v := by
  unfold View.unroll
  split
  · rfl
  · rw [unrollV_id h]

theorem View.unroll_flow {c : Int} {v : View} (h : v.flow ≠ 0) : v.unroll c = v := by
  unfold View.unroll
  rw [if_pos h]

theorem View.unroll_twice {c d : Int} {v : View} (h : c ≤ d) : (v.unroll d).unroll c = v.unroll c := by
  by_cases hf : v.flow ≠ 0
  · rw [View.unroll_flow hf, View.unroll_flow hf]
  · have hf : v.flow = 0 := by omega
    unfold View.unroll
    simp only [hf, ne_eq, not_true, if_false]
    rw [unrollV_twice h]

@[simp] theorem View.unroll_ks {c : Int} {v : View} : (v.unroll c).ks = v.ks := by unfold View.unroll; split <;> rfl
@[simp] theorem View.unroll_al {c : Int} {v : View} : (v.unroll c).al = v.al := by unfold View.unroll; split <;> rfl
@[simp] theorem View.unroll_flowLevel {c : Int} {v : View} : (v.unroll c).flow = v.flow := by unfold View.unroll; split <;> rfl

theorem unrollV_nested {c : Int} (hc : -1 ≤ c) : ∀ {ind : Int} {inds : List Int} {ds : List TokData}, NestedColumns (ind :: inds) →
    NestedColumns ((unrollV c ind inds ds).1 :: (unrollV c ind inds ds).2.1) ∧ (unrollV c ind inds ds).1 ≤ c := by
  intro ind inds
  induction inds generalizing ind with
  | nil =>
    intro ds h
    refine ⟨h, ?_⟩
    have : ind = -1 := h
    show ind ≤ c
    omega
  | cons i is ih =>
    intro ds h
    unfold unrollV
    split
    · exact ih h.2
    · exact ⟨h, by show ind ≤ c; omega⟩

theorem unrollV_length {c : Int} : ∀ {ind : Int} {inds : List Int} {ds : List TokData}, (unrollV c ind inds ds).2.1.length ≤ inds.length := by
  intro ind inds
  induction inds generalizing ind with
  | nil => intro ds; exact Nat.le_refl _
  | cons i is ih =>
    intro ds
    unfold unrollV
    split
    · exact Nat.le_trans ih (by simp)
    · exact Nat.le_refl _

theorem View.unroll_depth {c : Int} {v : View} : (v.unroll c).depth ≤ v.depth := by
  unfold View.unroll View.depth
  split
  · omega
  · have := unrollV_length (c := c) (ind := v.ind) (inds := v.inds) (ds := v.ds)
    simp only []
    omega

def View.Nested (v : View) : Prop := NestedColumns (v.ind :: v.inds)

theorem View.Nested.unroll {c : Int} {v : View} (h : v.Nested) (hc : -1 ≤ c) : (v.unroll c).Nested := by
  unfold View.unroll
  split
  · exact h
  · exact (unrollV_nested hc h).1

theorem unrollLoop_map {c : Int} (hc : -1 ≤ c) {m : Mark} : ∀ {ind : Int} {inds : List Int} {q : List Token}, NestedColumns (ind :: inds) →
    ∃ q', unrollLoop c m ind inds q = .ok ((unrollV c ind inds (q.map Token.data)).1, (unrollV c ind inds (q.map Token.data)).2.1, q') ∧
      q'.map Token.data = (unrollV c ind inds (q.map Token.data)).2.2 := by
  intro ind inds
  induction inds generalizing ind with
  | nil =>
    intro q h
    have : ind = -1 := h
    exact ⟨q, by unfold unrollLoop; rw [if_neg (by omega)]; rfl, rfl⟩
  | cons i is ih =>
    intro q h
    unfold unrollLoop unrollV
    by_cases hi : ind > c
    · rw [if_pos hi, if_pos hi]
      have := ih (q := q ++ [{ data := .blockEnd, start := m, stop := m }]) h.2
      rw [List.map_append] at this
      exact this
    · rw [if_neg hi, if_neg hi]
      exact ⟨q, rfl, rfl⟩

theorem sees_unroll {c : Int} (hc : -1 ≤ c) {v : View} {s : Scanner} (h : Sees v s) (hn : v.Nested) :
    ∃ s', s.unrollIndent c = .ok s' ∧ Sees (v.unroll c) s' ∧ s'.mark = s.mark ∧ s'.tokensParsed = s.tokensParsed ∧ s'.startProduced = s.startProduced := by
  unfold Scanner.unrollIndent View.unroll
  rw [h.flow]
  by_cases hf : v.flow ≠ 0
  · rw [if_pos hf, if_pos hf]
    exact ⟨s, rfl, h, rfl, rfl, rfl⟩
  · rw [if_neg hf, if_neg hf]
    have hn' : NestedColumns (s.indent :: s.indents) := by rw [h.ind, h.inds]; exact hn
    obtain ⟨q', h1, h2⟩ := unrollLoop_map (m := s.mark) hc (q := s.tokens) hn'
    rw [h1]
    rw [h.ds, h.ind, h.inds] at h2 ⊢
    exact ⟨_, rfl, ⟨h2, rfl, rfl, rfl, h.al, h.ks⟩, rfl, rfl, rfl⟩

/-! ### The keys -/

/-- The keys when the position is `u`. -/
def KS.age (u : Text) : KS → KS
  | .off => .off
  | .calm l => if l < lineBreaks u then .off else .calm l
  | .on n u0 r => .on n u0 r

/-- A key that is known exactly is not stale at `u`. -/
def KS.fresh (u : Text) : KS → Prop
  | .on _ u0 _ => lineBreaks u0 = lineBreaks u ∧ u.length ≤ u0.length + 1024
  | _ => True

theorem stale_mark {k : SimpleKey} {u : Text} :
    k.stale (markOf u) = true ↔ k.possible = true ∧ (k.mark.line < lineBreaks u ∨ k.mark.index + 1024 < u.length) := by
  unfold SimpleKey.stale
  rw [Bool.and_eq_true, Bool.or_eq_true, decide_eq_true_iff, decide_eq_true_iff]
  exact Iff.rfl

theorem keysOk_stale {u : Text} : ∀ {as : List KS} {ks : List SimpleKey}, KeysOk as ks → (∀ a ∈ as, a.fresh u) →
    ∃ ks', staleKeys (markOf u) ks = .ok ks' ∧ KeysOk (as.map (KS.age u)) ks' := by
  intro as
  induction as with
  | nil =>
    intro ks h _
    cases ks with
    | nil => exact ⟨[], rfl, trivial⟩
    | cons _ _ => exact h.elim
  | cons a as ih =>
    intro ks h hf
    cases ks with
    | nil => exact h.elim
    | cons k ks =>
      obtain ⟨h1, h2⟩ := h
      obtain ⟨ks', e1, e2⟩ := ih h2 (fun x hx => hf x (List.mem_cons_of_mem _ hx))
      have hfa := hf a List.mem_cons_self
      unfold staleKeys
      rw [e1]
      simp only []
      by_cases hs : k.stale (markOf u) = true
      · rw [if_pos hs]
        obtain ⟨s1, s2⟩ := stale_mark.mp hs
        have hreq : k.required = false := by
          cases a with
          | off => rw [show k.possible = false from h1] at s1; cases s1
          | calm l => exact (h1 s1).1
          | on n u0 r =>
            rw [show k = _ from h1] at s2
            obtain ⟨f1, f2⟩ := hfa
            simp only [markOf] at s2
            omega
        rw [hreq]
        refine ⟨_, rfl, ?_, e2⟩
        cases a with
        | off => rfl
        | calm l =>
          show KS.Ok (if l < lineBreaks u then .off else .calm l) _
          split
          · rfl
          · intro h; cases h
        | on n u0 r =>
          rw [show k = _ from h1] at s2
          obtain ⟨f1, f2⟩ := hfa
          simp only [markOf] at s2
          omega
      · rw [if_neg hs]
        refine ⟨_, rfl, ?_, e2⟩
        cases a with
        | off => exact h1
        | calm l =>
          show KS.Ok (if l < lineBreaks u then .off else .calm l) _
          split
          · rename_i hl
            show k.possible = false
            cases hp : k.possible with
            | false => rfl
            | true =>
              exfalso
              obtain ⟨_, h4⟩ := h1 hp
              exact hs (stale_mark.mpr ⟨hp, .inl (by omega)⟩)
          · exact h1
        | on n u0 r => exact h1

/-! ### Running the scanner to a position -/

/-- A text, enough fuel, a bound for the depth, the encoding. -/
structure Cx where
  T : Text
  f : Nat
  B : Nat
  enc : Enc
  fuel : T.length + 2 < f
  short : T.length ≤ maxInt
  low : B ≤ maxInt

/-- The scanner has come to a position between tokens. -/
def Raw (C : Cx) (v : View) (u cs : Text) : Prop :=
  ∃ n s i, Chain C.T C.f C.B n { enc := C.enc } { cs := C.T } s i ∧ Running C.T none [] s i ∧ i.cs = cs ∧ C.T = u ++ cs ∧ Sees v s

/-- The part of `yaml_parser_fetch_next_token` in front of the case analysis. -/
def prep (f : Nat) : SM Unit := do
  lex (cacheC 1)
  let s ← get
  let allowed ← lex (scanToNext (s.flowLevel != 0) f f s.allowed)
  act (Scanner.allow allowed)
  act Scanner.stale
  act fun s => s.unrollIndent s.mark.column
  lex (cacheC 4)

/-- The scanner is in front of a token; `X` is what it is like before block collections are closed. -/
def Bd (C : Cx) (X : View) (u t : Text) : Prop :=
  ∃ n s i, Chain C.T C.f C.B n { enc := C.enc } { cs := C.T } s i ∧ Running C.T none [] s i ∧ C.T = u ++ t ∧ X.Nested ∧ X.flow = s.flowLevel ∧
    lw (prep C.f) (fun _ s' cs' => cs' = t ∧ s'.mark = markOf u ∧ Sees (X.unroll (lastColumn u)) s' ∧ s'.tokensParsed = 0) s i.cs

variable {C : Cx}

theorem at_of {T u cs : Text} {m : Mark} {i : In} (h : At T none m i) (hcs : i.cs = cs) (hT : T = u ++ cs) : m = markOf u ∧ NoCut u cs := by
  obtain ⟨u', h1, h2, h3⟩ := h.path
  rw [hcs, hT] at h1
  have := List.append_cancel_right h1
  subst this
  rw [hcs] at h3
  exact ⟨h2, h3⟩

theorem Bd.congr {X X' : View} {u t : Text} (h : Bd C X u t) (hn : X'.Nested) (he : X.unroll (lastColumn u) = X'.unroll (lastColumn u)) :
    Bd C X' u t := by
  obtain ⟨n, s, i, h1, h2, h3, _, h4, h5⟩ := h
  have hf : X.flow = X'.flow := by
    have := congrArg View.flow he
    simpa using this
  refine ⟨n, s, i, h1, h2, h3, hn, by rw [← hf]; exact h4, ?_⟩
  rw [he] at h5
  exact h5

theorem lw_fetchNext {f : Nat} {s : Scanner} {cs : Text} {Q : Unit → Scanner → Text → Prop} (hs : s.startProduced = true)
    (h : lw (prep f) (fun _ s' cs' => lw (do let kind ← lex (dispatch (s.flowLevel != 0)); fetchKind f kind) Q s' cs') s cs) :
    lw (fetchNext f) Q s cs := by
  unfold fetchNext
  unfold prep at h
  rw [lw_bind, lw_lex, lw_cache1] at h ⊢
  rw [lw_bind, lw_get] at h ⊢
  rw [if_pos hs]
  rw [lw_bind] at h ⊢
  refine lw_mono h fun a s1 cs1 h => ?_
  rw [lw_bind] at h ⊢
  refine lw_mono h fun _ s2 cs2 h => ?_
  rw [lw_bind] at h ⊢
  refine lw_mono h fun _ s3 cs3 h => ?_
  rw [lw_bind] at h ⊢
  refine lw_mono h fun _ s4 cs4 h => ?_
  rw [lw_bind] at ⊢
  exact h

/-- One call of `yaml_parser_fetch_next_token`. -/
theorem fetch_step {s : Scanner} {i : In} {Q : Unit → Scanner → Text → Prop} (h : Running C.T none [] s i)
    (hl : lw (fetchNext C.f) Q s i.cs) :
    ∃ s' i', (fetchNext C.f s).run i = .ok (((), s'), i') ∧ Q () s' i'.cs ∧
      ((Running C.T none [] s' i' ∧ i'.cs.length < i.cs.length) ∨ ScanEnded C.T [] s' i') := by
  have hlen := h.base.pos.index
  have hf := C.fuel
  have hs := sm_fetchNext (f := C.f) (Q := fun _ s' i' => (Running C.T none [] s' i' ∧ i'.cs.length < i.cs.length) ∨ ScanEnded C.T [] s' i')
    noBad h (by omega) (fun s' i' a b => .inl ⟨a, b⟩) (fun s' i' a => .inr a)
  obtain ⟨_, s', i', h1, h2, h3⟩ := lw_and h.base.pos.bad (pw_mono hs (fun _ _ _ h => h) (fun _ h => h.1)) hl
  exact ⟨s', i', h1, h2, h3⟩

/-- From the boundary over one token. -/
theorem Bd.token {X v : View} {u t u' t' : Text} {kind : Kind} (h : Bd C X u t) (hT : u ++ t = u' ++ t')
    (hd : lw (dispatch (X.flow != 0)) (fun k m cs => k = kind ∧ m = markOf u ∧ cs = t) (markOf u) t)
    (hk : ∀ s, s.mark = markOf u → s.tokensParsed = 0 → Sees (X.unroll (lastColumn u)) s →
      lw (fetchKind C.f kind) (fun _ s' cs' => cs' = t' ∧ Sees v s') s t)
    (hne : v.ds.getLast? ≠ some .streamEnd) (hB : v.depth ≤ C.B) : Raw C v u' t' := by
  obtain ⟨n, s, i, h1, h2, h3, h4, hflow, h5⟩ := h
  have hstep := fetch_step (C := C) h2 (lw_fetchNext (Q := fun _ s' cs' => cs' = t' ∧ Sees v s') h2.base.started (lw_mono h5 ?_))
  · obtain ⟨s', i', r1, ⟨r2, r3⟩, r4⟩ := hstep
    refine ⟨n + 1, s', i', h1.snoc (.inr h2) r1 ?_, ?_, r2, ?_, r3⟩
    · rw [r3.inds, r3.flow]; exact hB
    · rcases r4 with r4 | r4
      · exact r4.1
      · exfalso
        obtain ⟨A0, B, x, m, _, _, k1, _, _, _, _, hx, _⟩ := r4.final.parts
        refine hne ?_
        have k1 : s'.tokens = A0 ++ B ++ [x] := k1
        rw [← r3.ds, k1, List.map_append, hx]
        simp
    · rw [h3, hT]
  · rintro _ s1 cs1 ⟨rfl, e2, e3, e4⟩
    rw [lw_bind, lw_lex, ← hflow, e2]
    refine lw_mono hd ?_
    rintro k m cs ⟨rfl, rfl, rfl⟩
    refine hk _ rfl e4 ?_
    exact ⟨e3.ds, e3.ind, e3.inds, e3.flow, e3.al, e3.ks⟩

/-! ### White space between tokens -/

/-- A line break or none, and `k` spaces. -/
def gap (lb : Break) (br : Bool) (k : Nat) : Text := (if br = true then brkText (some lb) else []) ++ List.replicate k 0x20

/-- The text begins with a character that is no white space. -/
def TokStart (t : Text) : Prop := ∃ c r, t = c :: r ∧ isBlank c = false ∧ isBreak c = false ∧ c ≠ 35 ∧ c ≠ 0xFEFF

theorem lw_skipBom {m : Mark} {c : Nat} {r : Text} (hc : c ≠ 0xFEFF) {Q : Unit → Mark → Text → Prop} (hQ : Q () m (c :: r)) :
    lw skipBom Q m (c :: r) := by
  unfold skipBom
  rw [lw_bind, lw_get, lw_ite]
  split
  · rw [lw_bind, lw_peek0, lw_ite, if_neg (by simpa [isBom] using hc), lw_pure]; exact hQ
  · rw [lw_pure]; exact hQ

theorem lw_scanSpaces {flow al : Bool} {f n k : Nat} {m : Mark} {t : Text} (ht : TokStart t) (hf : k < f) {Q : Bool → Mark → Text → Prop}
    (hQ : ∀ m', Q al m' t) : lw (scanToNext flow f (n + 1) al) Q m (List.replicate k 0x20 ++ t) := by
  obtain ⟨c, r, rfl, h1, h2, h3, h4⟩ := ht
  unfold scanToNext
  rw [lw_bind, lw_cache1, lw_bind]
  have hbom : ∀ Q : Unit → Mark → Text → Prop, Q () m (List.replicate k 0x20 ++ c :: r) → lw skipBom Q m (List.replicate k 0x20 ++ c :: r) := by
    intro Q hQ
    cases k with
    | zero => exact lw_skipBom h4 hQ
    | succ k => exact lw_skipBom (by decide) hQ
  refine hbom _ ?_
  rw [lw_bind, lw_cache1, lw_bind]
  have hsp : (isSpace c || ((flow || !al) && isTab c)) = false := by
    simp only [isBlank, Bool.or_eq_false_iff] at h1
    rw [h1.1, h1.2]; simp
  refine lw_skipWhile (l := List.replicate k 0x20) (fun x hx => ?_) ⟨c, r, rfl, hsp⟩ (by simpa using hf) ?_
  · rw [List.eq_of_mem_replicate hx]; rfl
  · unfold skipComment
    rw [lw_bind, lw_bind, lw_peek0, lw_ite, if_neg (by simpa using h3), lw_pure, lw_bind, lw_peek0, lw_ite, if_neg (by rw [h2]; decide), lw_pure]
    exact hQ _

theorem lw_scanGap {flow al br : Bool} {lb : Break} {f k : Nat} {m : Mark} {t : Text} (ht : TokStart t) (hf : k + 2 < f)
    {Q : Bool → Mark → Text → Prop} (hQ : ∀ m', Q (al || (br && !flow)) m' t) : lw (scanToNext flow f f al) Q m (gap lb br k ++ t) := by
  obtain ⟨f, rfl⟩ : ∃ n, f = n + 2 := ⟨f - 2, by omega⟩
  cases br with
  | false =>
    simp only [Bool.false_and, Bool.or_false] at hQ
    simp only [gap, Bool.false_eq_true, if_false, List.nil_append]
    exact lw_scanSpaces ht (by omega) hQ
  | true =>
    simp only [gap, if_true, List.append_assoc]
    have hb : ∃ c r, brkText (some lb) ++ (List.replicate k 0x20 ++ t) = c :: r ∧ c ≠ 0xFEFF ∧ c ≠ 35 ∧ isBreak c = true ∧
        (isSpace c || ((flow || !al) && isTab c)) = false := by
      cases lb with
      | cr => exact ⟨13, _, rfl, by decide, by decide, by decide, by simp [isSpace, isTab]⟩
      | ln => exact ⟨10, _, rfl, by decide, by decide, by decide, by simp [isSpace, isTab]⟩
      | crln => exact ⟨13, _, rfl, by decide, by decide, by decide, by simp [isSpace, isTab]⟩
    have hab : AfterBreak lb (List.replicate k 0x20 ++ t) := by
      obtain ⟨c, r, rfl, h1, h2, h3, h4⟩ := ht
      cases k with
      | zero =>
        refine ⟨by simp, fun _ => ?_⟩
        intro h
        simp only [List.replicate_zero, List.nil_append, List.head?_cons, Option.some.injEq] at h
        rw [h] at h2; exact absurd h2 (by decide)
      | succ k =>
        refine ⟨by simp, fun _ => ?_⟩
        simp [List.replicate_succ]
    obtain ⟨c, r, e, h1, h2, h3, h4⟩ := hb
    unfold scanToNext
    rw [e, lw_bind, lw_cache1, lw_bind]
    refine lw_skipBom h1 ?_
    rw [lw_bind, lw_cache1, lw_bind]
    refine lw_skipWhile (l := []) (by simp) ⟨c, r, rfl, h4⟩ (by simp) ?_
    unfold skipComment
    rw [lw_bind, lw_bind, lw_peek0, lw_ite, if_neg (by simpa using h2), lw_pure, lw_bind, lw_peek0, lw_ite, if_pos h3, lw_bind, lw_cache2, ← e, lw_bind]
    refine lw_skipLine hab fun j => ?_
    refine lw_scanSpaces ht (by omega) fun m' => ?_
    have := hQ m'
    cases flow <;> cases al <;> exact this

/-- Over white space to the next token. -/
theorem Raw.gap {v : View} {u t : Text} {lb : Break} {br : Bool} {k : Nat} (h : Raw C v u (gap lb br k ++ t)) (ht : TokStart t)
    (hfr : ∀ a ∈ v.ks, a.fresh (u ++ LibYaml.gap lb br k)) :
    Bd C { v with ks := v.ks.map (KS.age (u ++ LibYaml.gap lb br k)), al := v.al || (br && v.flow == 0) } (u ++ LibYaml.gap lb br k) t := by
  obtain ⟨n, s, i, h1, h2, h3, h4, h5⟩ := h
  have hT : C.T = (u ++ LibYaml.gap lb br k) ++ t := by rw [h4, List.append_assoc]
  have hnest : NestedColumns (v.ind :: v.inds) := by
    have := h2.base.nested
    rw [h5.ind, h5.inds] at this
    exact this
  refine ⟨n, s, i, h1, h2, hT, hnest, h5.flow.symm, ?_⟩
  have hlen := h2.base.pos.index
  have hf := C.fuel
  have hl1 : (LibYaml.gap lb br k ++ t).length ≤ C.T.length := by rw [h4]; simp only [List.length_append]; omega
  have hk : k + 2 < C.f := by
    have : k ≤ (LibYaml.gap lb br k ++ t).length := by
      unfold LibYaml.gap; simp only [List.length_append, List.length_replicate]; omega
    omega
  have hcs : i.cs.length < C.f := by rw [h3]; omega
  have hscan : lw (scanToNext (s.flowLevel != 0) C.f C.f s.allowed)
      (fun a m' cs' => a = (v.al || (br && v.flow == 0)) ∧ cs' = t ∧ m' = markOf (u ++ LibYaml.gap lb br k)) s.mark i.cs := by
    have hs := safe_scanToNext (start := s.mark) (flow := s.flowLevel != 0) (allowed := s.allowed) (f := C.f) (n := C.f) (Q := fun _ m' i' => At C.T none m' i') noBad h2.base.pos hcs hcs
      (fun _ m' i' h _ _ _ => h)
    obtain ⟨a, m', i', r1, ⟨r2, r3⟩, r4⟩ := lw_and (Q := fun a _ cs' => a = (v.al || (br && v.flow == 0)) ∧ cs' = t) h2.base.pos.bad (pw_reported hs) (by
      rw [h3]
      refine lw_scanGap ht hk fun m' => ⟨?_, rfl⟩
      rw [h5.flow, h5.al]
      cases v.flow <;> rfl)
    exact lw_of_run h2.base.pos.bad r1 ⟨r2, r3, (at_of r4 r3 hT).1⟩
  unfold prep
  rw [lw_bind, lw_lex, lw_cache1, lw_bind, lw_get, lw_bind, lw_lex]
  refine lw_mono hscan ?_
  rintro a m1 cs1 ⟨rfl, rfl, rfl⟩
  rw [lw_bind]
  refine (lw_act (s' := { s with mark := markOf (u ++ LibYaml.gap lb br k), allowed := v.al || (br && v.flow == 0) }) ?_).mpr ?_
  · rfl
  rw [lw_bind]
  obtain ⟨ks', k1, k2⟩ := keysOk_stale (u := u ++ LibYaml.gap lb br k) h5.ks hfr
  rw [lw_act (s' := { s with mark := markOf (u ++ LibYaml.gap lb br k), allowed := v.al || (br && v.flow == 0), keys := ks' })]
  · rw [lw_bind]
    have hsee : Sees { v with ks := v.ks.map (KS.age (u ++ LibYaml.gap lb br k)), al := v.al || (br && v.flow == 0) }
        { s with mark := markOf (u ++ LibYaml.gap lb br k), allowed := v.al || (br && v.flow == 0), keys := ks' } :=
      ⟨h5.ds, h5.ind, h5.inds, h5.flow, rfl, k2⟩
    obtain ⟨s', g1, g2, g3, g4, g5⟩ := sees_unroll (c := (lastColumn (u ++ LibYaml.gap lb br k) : Nat)) (by omega) hsee hnest
    refine (lw_act (s' := s') ?_).mpr ?_
    · exact g1
    rw [lw_lex, lw_cache4]
    refine ⟨rfl, g3, ⟨g2.ds, g2.ind, g2.inds, g2.flow, g2.al, g2.ks⟩, ?_⟩
    show s'.tokensParsed = 0
    rw [g4]
    exact h2.base.parsed
  · unfold Scanner.stale
    simp only [k1]

end LibYaml
