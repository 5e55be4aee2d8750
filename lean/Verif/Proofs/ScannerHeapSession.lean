import Verif.Proofs.ScannerHeapNext
import Verif.Proofs.ParserHeapDocs
import Verif.Proofs.ParserHeapMem
import Verif.Props.Scanner

/-!
# Clients of the scanner on the heap: helper lemmas
-/

namespace LibYaml

open Spec

section
variable {o : Oracle} {A : Prop} {base : Nat → Option Obj} {s : Scanner} {c : Blocks} {h : Heap}

/-! ### Deleting -/

theorem hw_free_stk {γ : Type} [Cell γ] {vs : List γ} {st : HStk} {b bs bs' : Blocks} {Q : Unit → Heap → Prop} (hs : StkAt vs st b) (e : Ext A base bs h)
    (hp : bs.Perm (b ++ bs')) (hQ : ∀ h', Ext A base bs' h' → Q () h') : hw (free st.start) Q h := by
  obtain ⟨a, n, rfl, _, rfl⟩ := hs
  exact hw_free e hp hQ

theorem hw_free_que {γ : Type} [Cell γ] {vs : List γ} {q : HQue} {b bs bs' : Blocks} {Q : Unit → Heap → Prop} (hs : QueAt vs q b) (e : Ext A base bs h)
    (hp : bs.Perm (b ++ bs')) (hQ : ∀ h', Ext A base bs' h' → Q () h') : hw (free q.start) Q h := by
  obtain ⟨a, i, n, rfl, _, rfl⟩ := hs
  exact hw_free e hp hQ

theorem hw_dropTokens {n : Nat} {vs : List HToken} {q : HQue} {ts : List Token} {b1 b2 bs bs' : Blocks} {Q : HQue → Heap → Prop} (hn : n = vs.length)
    (hq : QueAt vs q b1) (ht : TokensAt ts vs b2) (e : Ext A base bs h) (hp : bs.Perm (b1 ++ (b2 ++ bs')))
    (hQ : ∀ h' q' b', QueAt ([] : List HToken) q' b' → Ext A base (b' ++ bs') h' → Q q' h') : hw (fDropTokens n q) Q h := by
  induction n generalizing vs q ts b1 b2 bs h with
  | zero =>
    have := List.eq_nil_of_length_eq_zero hn.symm
    subst this
    have := ht.length
    obtain rfl : ts = [] := List.eq_nil_of_length_eq_zero this.symm
    obtain ⟨-, rfl⟩ := ht
    unfold fDropTokens
    rw [hw_pure]
    exact hQ h q b1 hq (e.perm hp)
  | succ n ih =>
    cases ts with
    | nil => obtain ⟨rfl, -⟩ := ht; cases hn
    | cons t ts =>
      obtain ⟨v, vs', x, y, rfl, j1, j2, rfl⟩ := ht
      unfold fDropTokens
      rw [hw_bind]
      refine hw_qPop (bs' := x ++ (y ++ bs')) hq e (by blocks_by hp) fun h' q' x' k1 e' => ?_
      rw [hw_bind]
      refine hw_tokDel (bs' := x' ++ (y ++ bs')) j1 e' (by blocks) fun h2 e2 => ?_
      exact ih (by simpa using hn) k1 j2 e2 (List.Perm.refl _)

theorem hw_deleteTokens {vs : List HToken} {ts : List Token} {b bs bs' : Blocks} {Q : Unit → Heap → Prop} (ht : TokensAt ts vs b) (e : Ext A base bs h)
    (hp : bs.Perm (b ++ bs')) (hQ : ∀ h', Ext A base bs' h' → Q () h') : hw (deleteTokens vs) Q h := by
  induction ts generalizing vs b bs h with
  | nil =>
    obtain ⟨rfl, rfl⟩ := ht
    unfold deleteTokens
    rw [hw_pure]
    exact hQ h (e.perm hp)
  | cons t ts ih =>
    obtain ⟨v, vs', x, y, rfl, j1, j2, rfl⟩ := ht
    unfold deleteTokens
    rw [hw_bind]
    refine hw_tokDel (bs' := y ++ bs') j1 e (by blocks_by hp) fun h2 e2 => ?_
    exact ih j2 e2 (List.Perm.refl _)

theorem hw_fClose {x : HScan} {t : Scanner} {inp : RS} {b bs bs' : Blocks} {Q : Unit → Heap → Prop} (hr : FRep s x t inp b) (e : Ext A base bs h)
    (hp : bs.Perm (b ++ bs')) (hQ : ∀ h', Ext A base bs' h' → Q () h') : hw (fClose x) Q h := by
  have hqd := hr.queued
  obtain ⟨rfl, h1, h2, vs, b1, b2, b3, b4, b5, k1, k2, k3, k4, ⟨x1, x2, r1, r2, rfl⟩, k6⟩ := hr
  have hp : bs.Perm ((b1 ++ (b2 ++ (b3 ++ (b4 ++ (x1 ++ x2))))) ++ bs') := hp.trans (k6.append_right _)
  unfold fClose
  rw [hw_bind]
  refine hw_free_str (bs' := b1 ++ (b2 ++ (b3 ++ (b4 ++ (x2 ++ bs'))))) e r1 (by blocks_by hp) fun h e => ?_
  rw [hw_bind]
  refine hw_free_str (bs' := b1 ++ (b2 ++ (b3 ++ (b4 ++ bs')))) e r2 (by blocks) fun h e => ?_
  rw [hw_bind]
  refine hw_dropTokens (bs' := b3 ++ (b4 ++ bs')) (by rw [k2.length]; omega) k1 k2 e (List.Perm.refl _) fun h q' y j1 e => ?_
  rw [hw_bind]
  refine hw_free_que (bs' := b3 ++ (b4 ++ bs')) j1 e (List.Perm.refl _) fun h e => ?_
  rw [hw_bind]
  refine hw_free_stk (bs' := b4 ++ bs') k3 e (List.Perm.refl _) fun h e => ?_
  exact hw_free_stk (bs' := bs') k4 e (List.Perm.refl _) hQ

/-! ### Initializing -/

/-- A block or a null pointer. -/
def OptAt (p : Ptr) (b : Blocks) : Prop := (p = none ∧ b = []) ∨ ∃ a o, p = some a ∧ b = [(a, o)]

theorem hw_free_opt {p : Ptr} {b bs bs' : Blocks} {Q : Unit → Heap → Prop} (hs : OptAt p b) (e : Ext A base bs h) (hp : bs.Perm (b ++ bs'))
    (hQ : ∀ h', Ext A base bs' h' → Q () h') : hw (free p) Q h := by
  rcases hs with ⟨rfl, rfl⟩ | ⟨a, o, rfl, rfl⟩
  · exact hw_free_null (hQ h (e.perm hp))
  · exact hw_free e hp hQ

/-- The blocks of a scanner that is being initialized. -/
def PartAt (x : HScan) (b : Blocks) : Prop :=
  ∃ b1 b2 b3 b4 b5, OptAt x.rest.rawBuffer b1 ∧ OptAt x.rest.buffer b2 ∧ OptAt x.tokens.start b3 ∧ OptAt x.indents.start b4 ∧
    OptAt x.keys.start b5 ∧ b.Perm (b1 ++ (b2 ++ (b3 ++ (b4 ++ b5))))

theorem hw_fOpenError {x : HScan} {b bs bs' : Blocks} {Q : Bool × HScan → Heap → Prop} (hx : PartAt x b) (e : Ext A base bs h) (hp : bs.Perm (b ++ bs'))
    (hQ : ∀ h', Ext A base bs' h' → Q (false, x) h') : hw (fOpenError x) Q h := by
  obtain ⟨b1, b2, b3, b4, b5, k1, k2, k3, k4, k5, k9⟩ := hx
  have hp := hp.trans (k9.append_right _)
  unfold fOpenError
  rw [hw_bind]
  refine hw_free_opt (bs' := b2 ++ (b3 ++ (b4 ++ (b5 ++ bs')))) k1 e (by blocks_by hp) fun h e => ?_
  rw [hw_bind]
  refine hw_free_opt k2 e (List.Perm.refl _) fun h e => ?_
  rw [hw_bind]
  refine hw_free_opt k3 e (List.Perm.refl _) fun h e => ?_
  rw [hw_bind]
  refine hw_free_opt k4 e (List.Perm.refl _) fun h e => ?_
  rw [hw_bind]
  refine hw_free_opt k5 e (List.Perm.refl _) fun h e => ?_
  rw [hw_pure]
  exact hQ h e

theorem stk_opt {γ : Type} [Cell γ] {vs : List γ} {st : HStk} {b : Blocks} (hs : StkAt vs st b) : OptAt st.start b := by
  obtain ⟨a, n, rfl, _, rfl⟩ := hs
  exact .inr ⟨_, _, rfl, rfl⟩

theorem que_opt {γ : Type} [Cell γ] {vs : List γ} {q : HQue} {b : Blocks} (hs : QueAt vs q b) : OptAt q.start b := by
  obtain ⟨a, i, n, rfl, _, rfl⟩ := hs
  exact .inr ⟨_, _, rfl, rfl⟩

theorem str_opt {v : Option (List UInt8)} {p : Ptr} {b : Blocks} (hs : StrAt v p b) : OptAt p b := by
  cases v with
  | none => exact .inl hs
  | some v => obtain ⟨a, _, rfl, rfl⟩ := hs; exact .inr ⟨_, _, rfl, rfl⟩

theorem null_opt : OptAt none [] := .inl ⟨rfl, rfl⟩

theorem hw_stk_init {γ : Type} [Cell γ] [LawfulCell γ] {bs : Blocks} {Q : Bool × HStk → Heap → Prop} (e : Ext A base bs h)
    (h0 : ∀ h', Ext A base bs h' → ¬ A → Q (false, {}) h') (h1 : ∀ h' st b, StkAt ([] : List γ) st b → Ext A base (b ++ bs) h' → Q (true, st) h') : hw (hInit γ) Q h :=
  hw_init e h0 fun h' a e' => h1 h' _ [(a, stkObj ([] : List γ) 16)] ⟨a, 16, rfl, .inr (by decide), rfl⟩ e'

theorem hw_que_init {γ : Type} [Cell γ] [LawfulCell γ] {bs : Blocks} {Q : Bool × HQue → Heap → Prop} (e : Ext A base bs h)
    (h0 : ∀ h', Ext A base bs h' → ¬ A → Q (false, {}) h') (h1 : ∀ h' q b, QueAt ([] : List γ) q b → Ext A base (b ++ bs) h' → Q (true, q) h') : hw (qInit γ) Q h := by
  unfold qInit
  rw [hw_bind]
  refine hw_malloc e (fun h' e' ha => h0 h' e' ha) fun h' p e' => h1 h' _ [(p, _)] ⟨p, 0, 16, rfl, by simp, rfl⟩ (by simpa using e')

/-- Initializing failed for lack of memory and left nothing, or there is a parser in its first state. -/
def Inits (A : Prop) (base : Nat → Option Obj) (c : Blocks) (enc : Enc) (inp : RS) (r : Bool × HScan) (h : Heap) : Prop :=
  if r.1 then ∃ b, FRep { enc := enc } r.2 { enc := enc } inp b ∧ Ext A base (b ++ c) h else Ext A base c h ∧ ¬ A

theorem hw_fOpenQueues {enc : Enc} {inp : RS} {raw buf : Ptr} {b1 b2 bs : Blocks}
    (k1 : StrAt (some []) raw b1) (k2 : StrAt (some []) buf b2) (e : Ext A base bs h) (hp : bs.Perm (b1 ++ (b2 ++ c))) :
    hw (fOpenQueues { inp, enc, rest := { rawBuffer := raw, buffer := buf } }) (Inits A base c enc inp) h := by
  unfold fOpenQueues
  rw [hw_bind]
  refine hw_que_init e (fun h e ha => ?_) fun h st b3 k3 e => ?_
  · refine hw_fOpenError (b := b1 ++ (b2 ++ ([] ++ ([] ++ [])))) (bs' := c)
      ⟨_, _, _, _, _, str_opt k1, str_opt k2, null_opt, null_opt, null_opt, List.Perm.refl _⟩ e (by blocks_by hp)
      fun h' e' => ⟨e', ha⟩
  simp only [Bool.not_true, Bool.false_eq_true, if_false]
  rw [hw_bind]
  refine hw_stk_init e (fun h e ha => ?_) fun h st2 b4 k4 e => ?_
  · refine hw_fOpenError (b := b1 ++ (b2 ++ (b3 ++ ([] ++ [])))) (bs' := c)
      ⟨_, _, _, _, _, str_opt k1, str_opt k2, que_opt k3, null_opt, null_opt, List.Perm.refl _⟩ e (by blocks_by hp)
      fun h' e' => ⟨e', ha⟩
  simp only [Bool.not_true, Bool.false_eq_true, if_false]
  rw [hw_bind]
  refine hw_stk_init e (fun h e ha => ?_) fun h st3 b5 k5 e => ?_
  · refine hw_fOpenError (b := b1 ++ (b2 ++ (b3 ++ (b4 ++ [])))) (bs' := c)
      ⟨_, _, _, _, _, str_opt k1, str_opt k2, que_opt k3, stk_opt k4, null_opt, List.Perm.refl _⟩ e (by blocks_by hp)
      fun h' e' => ⟨e', ha⟩
  simp only [Bool.not_true, Bool.false_eq_true, if_false]
  rw [hw_pure]
  exact ⟨b3 ++ ([] ++ (b4 ++ (b5 ++ (b1 ++ b2)))), ⟨rfl, rfl, ⟨rfl, rfl, rfl, rfl, rfl, rfl, rfl⟩, [], b3, [], b4, b5, _, k3, ⟨rfl, rfl⟩, k4, k5,
    ⟨b1, b2, k1, k2, rfl⟩, List.Perm.refl _⟩, e.perm (by blocks_by hp)⟩

theorem hw_fOpen {enc : Option Enc} {bytes : List UInt8} (e : Ext A base c h) :
    hw (fOpen enc bytes) (Inits A base c (chosen enc bytes).1 (RS.init bytes enc)) h := by
  unfold fOpen
  rw [hw_bind]
  refine hw_malloc e (fun h e ha => ?_) fun h p e => ?_
  · simp only [Option.isNone_none, if_true]
    exact hw_fOpenError (b := []) (bs' := c) ⟨[], [], [], [], [], null_opt, null_opt, null_opt, null_opt, null_opt, List.Perm.refl _⟩
      e (List.Perm.refl _) fun h' e' => ⟨e', ha⟩
  simp only [Option.isNone_some, Bool.false_eq_true, if_false]
  rw [hw_bind]
  refine hw_malloc e (fun h e ha => ?_) fun h q e => ?_
  · simp only [Option.isNone_none, if_true]
    exact hw_fOpenError (b := [(p, Obj.bytes [0])]) (bs' := c) ⟨[(p, Obj.bytes [0])], [], [], [], [], .inr ⟨_, _, rfl, rfl⟩, null_opt, null_opt, null_opt, null_opt, List.Perm.refl _⟩
      e (List.Perm.refl _) fun h' e' => ⟨e', ha⟩
  simp only [Option.isNone_some, Bool.false_eq_true, if_false]
  exact hw_fOpenQueues (b1 := [(p, Obj.bytes [0])]) (b2 := [(q, Obj.bytes [0])]) ⟨p, [], rfl, rfl⟩ ⟨q, [], rfl, rfl⟩ e (by blocks)

/-! ### The scanner as the parser uses it -/

/-- The scanner on the heap, its blocks, and its limits. -/
instance : SrcMem HScan where
  left x b := ∃ s inp, FRep s x s inp b
  full := ScanFull

theorem cstr_at {a : Text} {p : Ptr} {b : Blocks} (h : CStr a p b) : StrAt (some (textBytes a)) p b := by
  obtain ⟨q, mem, rfl, rfl, hz, he⟩ := h
  have key : ∀ mem : List UInt8, 0 ∈ mem → ∃ z, mem = cbytes mem ++ 0 :: z := by
    intro mem
    induction mem with
    | nil => intro h; cases h
    | cons x m ih =>
      intro h
      by_cases hx : x = 0
      · subst hx
        exact ⟨m, by simp [cbytes]⟩
      · rcases List.mem_cons.mp h with h | h
        · exact absurd h.symm hx
        · obtain ⟨z, hz⟩ := ih h
          refine ⟨z, ?_⟩
          have : cbytes (x :: m) = x :: cbytes m := by simp [cbytes, hx]
          rw [this, List.cons_append, ← hz]
  obtain ⟨z, hm⟩ := key mem hz
  exact ⟨q, z, rfl, by rw [← he, ← hm]⟩

theorem tokMem_at {d : TokData} {t : HTokData} {b : Blocks} (h : TokMem d t b) : TokAt d t b := by
  cases d with
  | tagDirective d => obtain ⟨p, q, x, y, h1, h2, h3, h4⟩ := h; exact ⟨p, q, x, y, h1, cstr_at h2, cstr_at h3, h4⟩
  | «alias» a => obtain ⟨p, h1, h2⟩ := h; exact ⟨p, h1, cstr_at h2⟩
  | anchor a => obtain ⟨p, h1, h2⟩ := h; exact ⟨p, h1, cstr_at h2⟩
  | tag a c => obtain ⟨p, q, x, y, h1, h2, h3, h4⟩ := h; exact ⟨p, q, x, y, h1, cstr_at h2, cstr_at h3, h4⟩
  | scalar v st =>
    obtain ⟨a, k, h1, h2, h3⟩ := h
    obtain ⟨k, rfl⟩ : ∃ j, k = j + 1 := ⟨k - 1, by omega⟩
    exact ⟨_, h1, a, List.replicate k 0, rfl, h3⟩
  | _ => exact h

theorem scan_closes {f : Nat} {enc : Option Enc} {bytes : List UInt8} : SrcCloses (scanSrc o f enc bytes) where
  close := by
    rintro A base x b fr h Q ⟨s, inp, hr⟩ e hQ
    exact hw_fClose hr e (List.Perm.refl _) hQ

/-- The scanner on the heap is in the state of the scanner on values, and owns these blocks. -/
instance [SrcInv (Scanner × RS)] : SrcLink HScan (Scanner × RS) where
  own x y b := FRep y.1 x y.1 y.2 b ∧ SrcInv.good y
  left h := ⟨_, _, h.1⟩

/-- The scanner on the heap does what the scanner on values does. -/
theorem scan_link [SrcInv (Scanner × RS)] [Strict] {f : Nat} {enc : Option Enc} {bytes : List UInt8} (hS : KeepsSrc (scannerSrc o f)) :
    Link (scanSrc o f enc bytes) (scannerSrc o f) where
  next := by
    rintro A base x ⟨s, inp⟩ b fr h ⟨hr, hg⟩ e hu hf
    have hn : (scannerSrc o f).next (s, inp) = match (nextToken f s).runR o inp with
        | .error e => .error e
        | .ok ((t, s), st) => .ok (t, (s, st)) := rfl
    have sane : Sane ((nextToken f s).runR o inp) := by
      intro er he
      rw [he] at hn
      exact ⟨fun h => hu (by rw [hn, h]), fun h => hf (by rw [hn, h])⟩
    show hw (scanNext o f x) _ h
    unfold scanNext
    rw [hw_bind]
    refine hw_mono (fr_token x _ _ b h hr e sane) ?_
    rintro ⟨er | v, x'⟩ h' post
    · obtain ⟨⟨j, t, inp', b', ⟨rfl, hj⟩, e'⟩, hk⟩ := post
      have hl : ∃ b', SrcMem.left x' b' ∧ Ext A base (b' ++ fr) h' := ⟨b', ⟨_, _, rfl, hj⟩, e'⟩
      rcases hk with ⟨fl, hk, rfl⟩ | ⟨hk, hfull⟩
      · rw [hk] at hn
        simp only [hw_pure]
        exact ⟨hl, .inl hn⟩
      · rcases hk with rfl | rfl
        · simp only [hw_pure]
          exact ⟨hl, .inr ⟨by trivial, hfull⟩⟩
        · simp only [hw_pure]
          exact ⟨hl, .inr ⟨by trivial, hfull⟩⟩
    · obtain ⟨t, s', inp', j, d, b', hk, ⟨rfl, hj⟩, e', y, ⟨hs1, hs2, hs3⟩, hp'⟩ := post
      rw [hk] at hn
      have := hS _ _ _ hg hn
      simp only [hw_pure]
      exact ⟨t, _, b', y, hn, this.1, tokMem_at hs1, hs2, hs3, ⟨⟨rfl, hj⟩, this.2⟩, e'.perm (by blocks_by hp')⟩
  depth := by
    rintro x ⟨s, inp⟩ b ⟨⟨-, h1, h2, vs, b1, b2, b3, b4, b5, k1, k2, ⟨a, n, k3, -⟩, -⟩, -⟩
    show x.indents.top + x.flowLevel = s.indents.length + s.flowLevel
    rw [k3, h2.flow]

/-- It starts like the scanner on values. -/
theorem scan_starts [SrcInv (Scanner × RS)] {f : Nat} {enc : Option Enc} {bytes : List UInt8}
    (hg : SrcInv.good ((scanStart enc bytes).scanner, (scanStart enc bytes).input)) :
    SrcStarts (scanSrc o f enc bytes) ((scanStart enc bytes).scanner, (scanStart enc bytes).input) where
  toSrcCloses := scan_closes
  start := by
    intro A base fr h Q e h0 h1
    refine hw_mono (hw_fOpen e) ?_
    rintro ⟨ok, x⟩ h' post
    cases ok with
    | false => exact h0 h' x post.1 post.2
    | true =>
      obtain ⟨b, hr, e'⟩ : ∃ b, FRep _ x _ _ b ∧ _ := post
      exact h1 h' x b ⟨hr, hg⟩ e'

/-! ### Scanning -/

/-- `n` calls after initializing. -/
abbrev after (o : Oracle) (f : Nat) (enc : Option Enc) (bytes : List UInt8) (n : Nat) : List ScanOut × ScanSt RS := scanRun o f (scanStart enc bytes) n

theorem after_call {f : Nat} {enc : Option Enc} {bytes : List UInt8} {n : Nat} (h1 : (after o f enc bytes n).2.ended = false)
    (h2 : (after o f enc bytes n).2.error = none) :
    match onReader o (nextToken f) (after o f enc bytes n).2.scanner (after o f enc bytes n).2.input with
    | .error e => (after o f enc bytes (n + 1)).1 = (after o f enc bytes n).1 ++ [.failed] ∧ (after o f enc bytes (n + 1)).2.error = some e
    | .ok ((t, s), i) => (after o f enc bytes (n + 1)).1 = (after o f enc bytes n).1 ++ [.token t] ∧
        (after o f enc bytes (n + 1)).2 = { scanner := s, input := i, ended := t.data == .streamEnd, error := none } := by
  have h : after o f enc bytes (n + 1) = ((after o f enc bytes n).1 ++ [(scanCall (onReader o) f (after o f enc bytes n).2).1], (scanCall (onReader o) f (after o f enc bytes n).2).2) := rfl
  rw [h]
  unfold scanCall
  rw [h1, h2]
  simp only [Option.isSome_none, Bool.or_self, Bool.false_eq_true, if_false]
  cases onReader o (nextToken f) (after o f enc bytes n).2.scanner (after o f enc bytes n).2.input with
  | error e => exact ⟨rfl, rfl⟩
  | ok r => exact ⟨rfl, by simp only [h2]⟩

/-- What the calls made so far have to do with calls on values: the tokens are the same, and a call failed for the same reason, or for lack of memory. -/
structure ScanLog (o : Oracle) (A : Prop) (f : Nat) (enc : Option Enc) (bytes : List UInt8) (n k : Nat) (ts : List Token) (e : ScanEnd) (x : HScan) : Prop where
  outs : (after o f enc bytes (n + ts.length)).1 = (after o f enc bytes n).1 ++ ts.map .token
  all : e = .all → ts.length = k ∨ (after o f enc bytes (n + ts.length)).2.ended = true
  failed : ∀ er, e = .failed er →
    (∃ fl, (after o f enc bytes (n + ts.length + 1)).1 = (after o f enc bytes (n + ts.length)).1 ++ [.failed] ∧
      (after o f enc bytes (n + ts.length + 1)).2.error = some fl ∧ er = some fl) ∨
    ((er = none ∨ er = some .memory) ∧ (A → ScanFull x))

theorem same_streamEnd {v : HToken} {t : Token} {x : Blocks} (h : SameToken v t x) : v.data = .plain .streamEnd ↔ t.data = .streamEnd := by
  obtain ⟨h, -, -⟩ := h
  generalize t.data = d at h
  cases d with
  | tagDirective d => obtain ⟨p, q, _, _, h, _⟩ := h; rw [h]; simp
  | «alias» a => obtain ⟨p, h, _⟩ := h; rw [h]; simp
  | anchor a => obtain ⟨p, h, _⟩ := h; rw [h]; simp
  | tag a c => obtain ⟨p, q, _, _, h, _⟩ := h; rw [h]; simp
  | scalar v st => obtain ⟨a, k, h, _⟩ := h; rw [h]; simp
  | _ => obtain ⟨h, _⟩ := h; rw [h]; simp

theorem hw_fScan {f k n : Nat} {enc : Option Enc} {bytes : List UInt8} (hsize : bytes.length < maxFileSize) (hf : bytes.length + 3 < f) {x : HScan} {b bs : Blocks}
    (h1 : (after o f enc bytes n).2.ended = false) (h2 : (after o f enc bytes n).2.error = none)
    (hr : FRep (after o f enc bytes n).2.scanner x (after o f enc bytes n).2.scanner (after o f enc bytes n).2.input b) (e : Ext A base bs h) (hp : bs.Perm (b ++ c)) :
    hw (fScan o f k x) (fun r h' => ∃ ts bt s' inp' b', TokensAt ts r.1 bt ∧ FRep s' r.2.2 s' inp' b' ∧ Ext A base (b' ++ (bt ++ c)) h' ∧
      ScanLog o A f enc bytes n k ts r.2.1 r.2.2) h := by
  induction k generalizing n x b c bs h with
  | zero =>
    unfold fScan
    rw [hw_pure]
    exact ⟨[], [], _, _, b, ⟨rfl, rfl⟩, hr, e.perm hp, ⟨by simp, fun _ => .inl rfl, fun _ he => ScanEnd.noConfusion he⟩⟩
  | succ k ih =>
    unfold fScan
    rw [hw_bind]
    have hstep := after_call h1 h2
    have sane : Sane ((nextToken f (after o f enc bytes n).2.scanner).runR o (after o f enc bytes n).2.input) := by
      intro er he
      unfold onReader at hstep
      rw [he] at hstep
      exact C22_never_beyond_buffered_input o enc bytes hsize f hf (n + 1) er hstep.2
    refine hw_mono (fr_token x _ _ b h hr (e.perm hp) sane) ?_
    rintro ⟨er | v, x'⟩ h' post
    · obtain ⟨⟨j, t, inp', b', hj, e'⟩, hk⟩ := post
      rw [hw_pure]
      obtain ⟨rfl, hj⟩ := hj
      refine ⟨[], [], _, _, b', ⟨rfl, rfl⟩, ⟨rfl, hj⟩, e', ⟨by simp, fun he => ScanEnd.noConfusion he, fun er' he => ?_⟩⟩
      cases he
      rcases hk with ⟨fl, hk, rfl⟩ | hk
      · unfold onReader at hstep
        rw [hk] at hstep
        exact .inl ⟨fl, hstep.1, hstep.2, rfl⟩
      · exact .inr hk
    · obtain ⟨t, s', inp', j, d, b', hk, ⟨rfl, hj⟩, e', y, hs, hp'⟩ := post
      unfold onReader at hstep
      rw [hk] at hstep
      obtain ⟨g1, g2⟩ := hstep
      simp only
      rw [hw_ite]
      by_cases hse : v.data = .plain .streamEnd
      · rw [if_pos hse, hw_pure]
        refine ⟨[t], y, _, _, b', .one hs, ⟨rfl, hj⟩, e'.perm (by blocks_by hp'), ⟨by simpa using g1, fun _ => .inr ?_, fun _ he => ScanEnd.noConfusion he⟩⟩
        simp only [List.length_cons, List.length_nil]
        rw [g2]
        simp [(same_streamEnd hs).mp hse]
      · rw [if_neg hse, hw_bind]
        have hne : ¬ t.data = .streamEnd := fun h => hse ((same_streamEnd hs).mpr h)
        refine hw_mono (ih (n := n + 1) (c := y ++ c) (by rw [g2]; simp [hne]) (by rw [g2]) (b := b') (by rw [g2]; exact ⟨rfl, hj⟩) e' (by blocks_by hp')) ?_
        rintro ⟨vs, en, x2⟩ h2 ⟨ts, bt, s2, inp2, b2, k1, k2, k3, k4⟩
        rw [hw_pure]
        have hl : n + (t :: ts).length = n + 1 + ts.length := by simp; omega
        refine ⟨t :: ts, y ++ bt, s2, inp2, b2, ⟨v, vs, y, bt, rfl, hs, k1, rfl⟩, k2, k3.perm (by blocks), ⟨?_, ?_, ?_⟩⟩
        · rw [hl, k4.outs, g1]
          simp
        · intro he
          rw [hl]
          exact (k4.all he).imp (fun h => by simp [h]) id
        · intro er he
          rw [hl]
          exact k4.failed er he

end

end LibYaml
