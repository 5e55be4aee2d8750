import Verif.Model.ScannerHeapFetch
import Verif.Proofs.ScannerHeapScalars
import Verif.Proofs.ParserHeapRun
import Verif.Proofs.HeapQueue

/-!
# The queue of tokens and the stacks of the scanner on the heap: helper lemmas
-/

namespace LibYaml

open Spec

section
variable {α : Type} [Cell α] [LawfulCell α] {A : Prop} {base : Nat → Option Obj} {bs bs' : Blocks} {h : Heap}

theorem hw_qShift {es : List α} {a j n i : Nat} {v : α} {Q : Bool × HQue → Heap → Prop} {o : Obj} (hi : i ≤ es.length) (e : Ext A base bs h)
    (hp : bs.Perm ((a, o) :: bs')) (h1 : ∀ h' q' x', QueAt (es.take i ++ v :: es.drop i) q' x' → Ext A base (x' ++ bs') h' → Q (true, q') h') :
    hw (qShift v i ⟨some a, j, j + es.length⟩ (List.replicate j none ++ (es.map some ++ List.replicate (n + 1) none))) Q h := by
  unfold qShift
  rw [hw_ite, if_pos (by simp; omega), hw_bind]
  refine hw_store e hp fun h' e' => ?_
  refine h1 h' _ [_] ⟨a, j, n, by simp; omega, by simp, ?_⟩ e'
  have e1 : (List.replicate j none ++ (es.map some ++ List.replicate (n + 1) none) : List (Option α)).take (j + i) =
      List.replicate j none ++ (es.take i).map some := by
    rw [List.take_append, List.take_of_length_le (by simp), List.length_replicate, Nat.add_sub_cancel_left, List.take_append_of_le_length (by simpa using hi),
      List.map_take]
  have e2 : ((List.replicate j none ++ (es.map some ++ List.replicate (n + 1) none) : List (Option α)).take (j + es.length)).drop (j + i) =
      (es.drop i).map some := by
    rw [List.take_append, List.take_of_length_le (by simp), List.length_replicate, Nat.add_sub_cancel_left, List.take_append_of_le_length (by simp),
      List.take_of_length_le (by simp), List.drop_append, List.drop_of_length_le (by simp), List.length_replicate, Nat.add_sub_cancel_left, List.map_drop]
    rfl
  have e3 : (List.replicate j none ++ (es.map some ++ List.replicate (n + 1) none) : List (Option α)).drop (j + es.length + 1) = List.replicate n none := by
    rw [List.drop_append, List.drop_of_length_le (by simp; omega), List.length_replicate, List.drop_append, List.drop_of_length_le (by simp; omega),
      List.drop_replicate]
    simp
    omega
  simp only [e1, e2, e3]
  simp [List.append_assoc]

theorem hw_qInsert {es : List α} {q : HQue} {x : Blocks} {v : α} {i : Nat} {Q : Bool × HQue → Heap → Prop} (hq : QueAt es q x) (hi : i ≤ es.length)
    (e : Ext A base bs h) (hp : bs.Perm (x ++ bs')) (h0 : ∀ h', Ext A base bs h' → ¬ A → Q (false, q) h')
    (h1 : ∀ h' q' x', QueAt (es.take i ++ v :: es.drop i) q' x' → Ext A base (x' ++ bs') h' → Q (true, q') h') : hw (qInsert v i q) Q h := by
  obtain ⟨a, j, n, rfl, hne, rfl⟩ := hq
  unfold qInsert
  rw [hw_bind]
  refine hw_qCells e (hp.mem_iff.mpr List.mem_cons_self) ?_
  rw [hw_ite]
  cases n with
  | succ n =>
    rw [if_pos (by simp)]
    exact hw_qShift hi e hp h1
  | zero =>
    rw [if_neg (by simp), hw_bind]
    unfold qGrow
    rw [hw_ite]
    cases j with
    | zero =>
      rw [if_pos (by simp), hw_bind]
      refine hw_malloc e (fun h' e' ha => ?_) (fun h' p e' => ?_)
      · rw [hw_pure]
        simp only [Bool.not_false, if_true]
        rw [hw_pure]
        exact h0 h' e' ha
      · simp only []
        rw [hw_bind]
        refine hw_free (bs' := (p, _) :: bs') e' ((hp.cons _).trans (List.Perm.swap _ _ _)) (fun h2 e2 => ?_)
        rw [hw_pure]
        have hc : (List.replicate 0 none ++ (es.map some ++ List.replicate 0 none) : List (Option α)) = es.map some := by simp
        simp only [Bool.not_true, Bool.false_eq_true, if_false, hc, List.length_map]
        have hl : 0 < es.length := by
          rcases Nat.eq_zero_or_pos es.length with h | h
          · exact absurd (by simp [h]) hne
          · exact h
        unfold qMove
        rw [if_neg (by simp only [List.length_append, List.length_map, List.length_replicate]; omega)]
        obtain ⟨m, hm⟩ : ∃ m, es.length = m + 1 := ⟨es.length - 1, by omega⟩
        have := hw_qShift (es := es) (j := 0) (a := p) (n := m) (v := v) (Q := Q) hi e2 (List.Perm.refl _) h1
        rw [← hm] at this
        simpa using this
    | succ j =>
      rw [if_neg (by simp), hw_pure]
      simp only [Bool.not_true, Bool.false_eq_true, if_false]
      unfold qMove
      rw [if_pos (by simp)]
      have hlive : ((List.replicate (j + 1) none ++ (es.map some ++ List.replicate 0 none) : List (Option α)).take (j + 1 + es.length)).drop (j + 1) =
          es.map some := by
        rw [List.take_of_length_le (by simp), List.drop_append, List.drop_of_length_le (by simp)]
        simp
      simp only [hlive]
      have hlen : (List.replicate (j + 1) none ++ (es.map some ++ List.replicate 0 none) : List (Option α)).length - (es.map some).length = j + 1 := by
        simp
      have ht : j + 1 + es.length - (j + 1) = es.length := by omega
      rw [hlen, ht]
      have := hw_qShift (es := es) (j := 0) (a := a) (n := j) (v := v) (Q := Q) hi e hp h1
      simpa using this

end

/-! ### The state of the scanner -/

/-- Tokens in the heap. -/
def TokensAt : List Token → List HToken → Blocks → Prop
  | [], vs, b => vs = [] ∧ b = []
  | t :: ts, vs, b => ∃ v vs' x y, vs = v :: vs' ∧ SameToken v t x ∧ TokensAt ts vs' y ∧ b = x ++ y

theorem TokensAt.length {ts : List Token} {vs : List HToken} {b : Blocks} (h : TokensAt ts vs b) : vs.length = ts.length := by
  induction ts generalizing vs b with
  | nil => obtain ⟨rfl, -⟩ := h; rfl
  | cons t ts ih => obtain ⟨v, vs', x, y, rfl, _, h2, _⟩ := h; simp [ih h2]

theorem TokensAt.append {ts us : List Token} {vs ws : List HToken} {b c : Blocks} (h : TokensAt ts vs b) (h' : TokensAt us ws c) :
    TokensAt (ts ++ us) (vs ++ ws) (b ++ c) := by
  induction ts generalizing vs b with
  | nil => obtain ⟨rfl, rfl⟩ := h; exact h'
  | cons t ts ih =>
    obtain ⟨v, vs', x, y, rfl, h1, h2, rfl⟩ := h
    exact ⟨v, vs' ++ ws, x, y ++ c, rfl, h1, ih h2, by simp⟩

theorem TokensAt.one {t : Token} {v : HToken} {b : Blocks} (h : SameToken v t b) : TokensAt [t] [v] b := ⟨v, [], b, [], rfl, h, ⟨rfl, rfl⟩, by simp⟩

theorem TokensAt.split {ts : List Token} {vs : List HToken} {b : Blocks} (h : TokensAt ts vs b) (i : Nat) :
    ∃ x y, TokensAt (ts.take i) (vs.take i) x ∧ TokensAt (ts.drop i) (vs.drop i) y ∧ b = x ++ y := by
  induction i generalizing ts vs b with
  | zero => exact ⟨[], b, ⟨rfl, rfl⟩, h, rfl⟩
  | succ i ih =>
    cases ts with
    | nil => obtain ⟨rfl, rfl⟩ := h; exact ⟨[], [], ⟨rfl, rfl⟩, ⟨rfl, rfl⟩, rfl⟩
    | cons t ts =>
      obtain ⟨v, vs', x, y, rfl, h1, h2, rfl⟩ := h
      obtain ⟨x', y', k1, k2, rfl⟩ := ih h2
      exact ⟨x ++ x', y', ⟨v, _, x, x', rfl, h1, k1, rfl⟩, k2, by simp⟩

/-- The blocks of the reader. -/
def RestAt (r : HRest) (b : Blocks) : Prop :=
  ∃ x1 x2, StrAt (some []) r.rawBuffer x1 ∧ StrAt (some []) r.buffer x2 ∧ b = x1 ++ x2

/-- The fields that are numbers and flags. -/
structure Mirror (x : HScan) (s : Scanner) : Prop where
  enc : x.enc = s.enc
  mark : x.mark = s.mark
  started : x.startProduced = s.startProduced
  flow : x.flowLevel = s.flowLevel
  parsed : x.tokensParsed = s.tokensParsed
  indent : x.indent = s.indent
  allowed : x.allowed = s.allowed

/-- The scanner on the heap, the scanner on values, and the blocks of the former. -/
def FRep (s : Scanner) (x : HScan) (t : Scanner) (inp : RS) (b : Blocks) : Prop :=
  t = s ∧ x.inp = inp ∧ Mirror x s ∧ ∃ vs b1 b2 b3 b4 b5, QueAt vs x.tokens b1 ∧ TokensAt s.tokens vs b2 ∧ StkAt s.indents x.indents b3 ∧
    StkAt s.keys x.keys b4 ∧ RestAt x.rest b5 ∧ b.Perm (b1 ++ (b2 ++ (b3 ++ (b4 ++ b5))))

/-- A stack of the scanner is at its size limit. -/
def ScanFull (x : HScan) : Prop := stackLimit Int x.indents.top ∨ stackLimit SimpleKey x.keys.top

section
variable {α α' β β' : Type} {o : Oracle} {A : Prop} {base : Nat → Option Obj} {s s' : Scanner} {c d keep : Blocks}

abbrev FRel (o : Oracle) (A : Prop) (base : Nat → Option Obj) := XRel FRep o A base ScanFull (β := β) (α := α)

/-- A program on the heap for an action that does not touch the input. -/
def FAct (o : Oracle) (A : Prop) (base : Nat → Option Obj) (s : Scanner) (c : Blocks) (m : HF Unit) (g : Scanner → Except Fail Scanner) : Prop :=
  FRel o A base s c c m (act g) (fun _ _ j d => g s = .ok j ∧ c = d)

theorem fr_congr {m : HF β} {x y : SM α} {Q : β → α → Scanner → Blocks → Prop} (h : x s = y s) (hm : FRel o A base s c keep m y Q) :
    FRel o A base s c keep m x Q := by
  rintro hs t inp b hh ⟨rfl, hr⟩ e sane
  rw [h] at sane ⊢
  exact hm hs t inp b hh ⟨rfl, hr⟩ e sane

theorem act_congr {g g' : Scanner → Except Fail Scanner} (h : g s = g' s) : act g s = act g' s := by
  unfold act
  rw [h]

theorem fr_eq {m : HF Unit} {g g' : Scanner → Except Fail Scanner} (h : g s = g' s) (hm : FAct o A base s c m g') : FAct o A base s c m g :=
  xr_post (fr_congr (act_congr h) hm) fun _ _ _ _ hq => ⟨h.trans hq.1, hq.2⟩

/-- Undefined on values. -/
theorem fr_ub {m : HF Unit} {g : Scanner → Except Fail Scanner} (h : g s = .error .ub) : FAct o A base s c m g := by
  rintro hs t inp b hh ⟨rfl, hr⟩ e sane
  refine absurd rfl (sane .ub ?_).1
  unfold act
  rw [h]
  rfl

theorem fr_err {e : Fail} {g : Scanner → Except Fail Scanner} (h : g s = .error e) : FAct o A base s c (xfail (some e)) g := by
  rintro hs t inp b hh ⟨rfl, hr⟩ ex sane
  refine ⟨⟨_, _, _, b, ⟨rfl, hr⟩, ex⟩, .inl ⟨e, ?_, rfl⟩⟩
  unfold act
  rw [h]
  rfl

theorem fr_nop {g : Scanner → Except Fail Scanner} (h : g s = .ok s) : FAct o A base s c (pure ()) g := by
  rintro hs t inp b hh ⟨rfl, hr⟩ ex sane
  refine ⟨(), _, _, _, c, b, ?_, ⟨rfl, hr⟩, ex, h, rfl⟩
  unfold act
  rw [h]
  rfl

theorem act_comp {g g1 g2 : Scanner → Except Fail Scanner} (h : g s = match g1 s with | .error e => .error e | .ok s' => g2 s') :
    act g s = (act g1 >>= fun _ => act g2) s := by
  show _ = (act g1 s).bind fun p => act g2 p.2
  unfold act
  rw [h]
  cases g1 s <;> rfl

theorem fr_seq {m : HF Unit} {k : Unit → HF Unit} {g g1 g2 : Scanner → Except Fail Scanner} (h1 : FAct o A base s c m g1)
    (h2 : ∀ s', g1 s = .ok s' → FAct o A base s' c (k ()) g2) (h : g s = match g1 s with | .error e => .error e | .ok s' => g2 s') :
    FAct o A base s c (m >>= k) g := by
  refine fr_congr (act_comp h) (xr_bind h1 ?_)
  rintro _ _ s' d ⟨hs, rfl⟩
  refine xr_post (h2 s' hs) ?_
  rintro _ _ j d ⟨hj, rfl⟩
  refine ⟨?_, rfl⟩
  rw [h, hs]
  exact hj

/-- The rest of a program. -/
theorem fr_act {m : HF Unit} {k : Unit → HF β'} {g : Scanner → Except Fail Scanner} {y : Unit → SM α'} {Q : β' → α' → Scanner → Blocks → Prop}
    (h1 : FAct o A base s c m g) (h2 : ∀ s', g s = .ok s' → FRel o A base s' c c (k ()) (y ()) Q) : FRel o A base s c c (m >>= k) (act g >>= y) Q := by
  refine xr_bind h1 ?_
  rintro _ _ s' d ⟨hs, rfl⟩
  exact h2 s' hs

theorem fr_get {f : HScan → β} {v : β} {k : β → HF β'} {x : SM α} {Q : β' → α → Scanner → Blocks → Prop}
    (hf : ∀ hs inp b, FRep s hs s inp b → f hs = v) (h : FRel o A base s c keep (k v) x Q) : FRel o A base s c keep (xget f >>= k) x Q := by
  refine xr_get (R := fun w => w = v) ?_ ?_
  · rintro hs t inp b ⟨rfl, hr⟩
    exact hf hs inp b ⟨rfl, hr⟩
  · rintro _ rfl
    exact h

theorem fr_vget {m : HF β} {y : Scanner → SM α} {Q : β → α → Scanner → Blocks → Prop} (h : FRel o A base s c keep m (y s) Q) :
    FRel o A base s c keep m (get >>= y) Q :=
  fr_congr (y := y s) rfl h

/-- Assigning numbers and flags. -/
theorem fr_mod {f : HScan → HScan} {g : Scanner → Except Fail Scanner} (hg : g s = .ok s')
    (hf : ∀ x, (f x).inp = x.inp ∧ (f x).tokens = x.tokens ∧ (f x).indents = x.indents ∧ (f x).keys = x.keys ∧ (f x).rest = x.rest)
    (hs : s'.tokens = s.tokens ∧ s'.indents = s.indents ∧ s'.keys = s.keys) (hm : ∀ x, Mirror x s → Mirror (f x) s') :
    FAct o A base s c (xmod f) g := by
  rintro x t inp b hh ⟨rfl, h1, h2, vs, b1, b2, b3, b4, b5, k⟩ ex sane
  obtain ⟨f1, f2, f3, f4, f5⟩ := hf x
  obtain ⟨s1, s2, s3⟩ := hs
  refine ⟨(), s', _, s', c, b, ?_, ⟨rfl, f1.trans h1, hm x h2, vs, b1, b2, b3, b4, b5, ?_⟩, ex, hg, rfl⟩
  · unfold act
    rw [hg]
    rfl
  · rw [f2, f3, f4, f5, s1, s2, s3]
    exact k

theorem fr_allow {b : Bool} : FAct o A base s c (fAllow b) (Scanner.allow b) :=
  fr_mod rfl (fun _ => ⟨rfl, rfl, rfl, rfl, rfl⟩) ⟨rfl, rfl, rfl⟩ fun _ h => ⟨h.enc, h.mark, h.started, h.flow, h.parsed, h.indent, rfl⟩

theorem fin_act {g : Scanner → Except Fail Scanner} {x : HScan} {inp : RS} {b : Blocks} {h : Heap} (hg : g s = .ok s') (hr : FRep s' x s' inp b)
    (e : Ext A base (b ++ c) h) :
    XPost FRep A base ScanFull ((act g s).runR o inp) c (fun (_ : Unit) (_ : Unit) j d => g s = .ok j ∧ c = d) (.ok (), x) h := by
  refine ⟨(), s', inp, s', c, b, ?_, hr, e, hg, rfl⟩
  unfold act
  rw [hg]
  rfl

/-! ### Queue and stacks -/

/-- `ENQUEUE` -/
theorem fr_enqueue {t : Token} {v : HToken} {x : Blocks} (ht : SameToken v t x) :
    FRel o A base s (x ++ c) (x ++ c) (fEnqueue v) (act (Scanner.enqueue t)) (fun _ _ j d => s.enqueue t = .ok j ∧ c = d) := by
  rintro hs _ inp b hh ⟨rfl, h1, h2, vs, b1, b2, b3, b4, b5, k1, k2, k3, k4, k5, k6⟩ e sane
  unfold fEnqueue
  rw [hw_bind]
  refine hw_qPush (bs' := b2 ++ (b3 ++ (b4 ++ (b5 ++ (x ++ c))))) k1 e (by blocks_by k6) (fun h' e' ha => ?_) (fun h' q' x' j1 e' => ?_)
  · exact ⟨⟨_, _, _, b, ⟨rfl, h1, h2, vs, b1, b2, b3, b4, b5, k1, k2, k3, k4, k5, k6⟩, e'⟩, .inr ⟨.inr rfl, fun a => absurd a ha⟩⟩
  · refine ⟨(), _, _, _, c, x' ++ ((b2 ++ x) ++ (b3 ++ (b4 ++ b5))), rfl, ⟨rfl, h1, ⟨h2.1, h2.2, h2.3, h2.4, h2.5, h2.6, h2.7⟩, vs ++ [v], x', b2 ++ x, b3, b4, b5, j1,
      k2.append (.one ht), k3, k4, k5, List.Perm.refl _⟩, e'.perm (by blocks), rfl, rfl⟩

theorem plain_same {d : TokData} {m1 m2 : Mark} (hd : d.isPlain = true) : SameToken (plainToken d m1 m2) { data := d, start := m1, stop := m2 } [] := by
  refine ⟨?_, rfl, rfl⟩
  cases d <;> first | exact ⟨rfl, rfl⟩ | cases hd

/-- Tokens without strings. -/
theorem fr_enqueuePlain {d : TokData} {m1 m2 : Mark} (hd : d.isPlain = true) {g : Scanner → Except Fail Scanner}
    (hg : g s = s.enqueue { data := d, start := m1, stop := m2 }) : FAct o A base s c (fEnqueue (plainToken d m1 m2)) g :=
  fr_eq hg (fr_enqueue (x := []) (t := { data := d, start := m1, stop := m2 }) (plain_same hd))

theorem hw_tokDel {bs bs' : Blocks} {h : Heap} {t : Token} {v : HToken} {b : Blocks} {Q : Unit → Heap → Prop} (ht : SameToken v t b) (e : Ext A base bs h)
    (hp : bs.Perm (b ++ bs')) (hQ : ∀ h', Ext A base bs' h' → Q () h') : hw (tokenDelete v.data) Q h := by
  obtain ⟨ht, -, -⟩ := ht
  generalize v.data = w at ht
  unfold tokenDelete
  cases hd : t.data with
  | tagDirective d =>
    rw [hd] at ht
    obtain ⟨p, q, x, y, rfl, k1, k2, rfl⟩ := ht
    simp only
    rw [hw_bind]
    exact hw_mono (clean_cstr k1 (y ++ bs') h (e.perm (by blocks_by hp))) fun _ h1 e1 => hw_mono (clean_cstr k2 bs' h1 e1) fun _ h2 e2 => hQ h2 e2
  | tag d s =>
    rw [hd] at ht
    obtain ⟨p, q, x, y, rfl, k1, k2, rfl⟩ := ht
    simp only
    rw [hw_bind]
    exact hw_mono (clean_cstr k1 (y ++ bs') h (e.perm (by blocks_by hp))) fun _ h1 e1 => hw_mono (clean_cstr k2 bs' h1 e1) fun _ h2 e2 => hQ h2 e2
  | anchor a => rw [hd] at ht; obtain ⟨p, rfl, k1⟩ := ht; exact hw_mono (clean_cstr k1 bs' h (e.perm hp)) fun _ h2 e2 => hQ h2 e2
  | «alias» a => rw [hd] at ht; obtain ⟨p, rfl, k1⟩ := ht; exact hw_mono (clean_cstr k1 bs' h (e.perm hp)) fun _ h2 e2 => hQ h2 e2
  | scalar v st =>
    rw [hd] at ht
    obtain ⟨a, k, rfl, _, rfl⟩ := ht
    exact hw_free e hp fun h' e' => hQ h' e'
  | _ => rw [hd] at ht; obtain ⟨rfl, rfl⟩ := ht; exact hQ h (e.perm hp)

/-- `ENQUEUE` of a token that was scanned. -/
theorem fr_enqueueOwned {t : Token} {v : HToken} {d : Blocks} (hq : ∃ x, SameToken v t x ∧ d.Perm (x ++ c)) :
    FRel o A base s d c (fEnqueueOwned v) (act (Scanner.enqueue t)) (fun _ _ j d => s.enqueue t = .ok j ∧ c = d) := by
  obtain ⟨x, ht, hp⟩ := hq
  refine xr_perm hp ?_
  exact xr_orFree (l := x) (keep' := x ++ c) (fr_enqueue ht) (List.Perm.refl _) fun bs h e => hw_tokDel ht e (List.Perm.refl _) fun _ e => e

/-- `QUEUE_INSERT` -/
theorem fr_insert {n : Nat} {d : TokData} {m1 m2 : Mark} (hd : d.isPlain = true) {g : Scanner → Except Fail Scanner}
    (hg : g s = s.insert n { data := d, start := m1, stop := m2 }) : FAct o A base s c (fInsert n (plainToken d m1 m2)) g := by
  refine fr_eq (g' := Scanner.insert n { data := d, start := m1, stop := m2 }) hg ?_
  by_cases hu : n < s.tokensParsed ∨ s.tokens.length < n - s.tokensParsed
  · exact fr_ub (by unfold Scanner.insert; rw [if_pos hu])
  rintro hs _ inp b hh ⟨rfl, h1, h2, vs, b1, b2, b3, b4, b5, k1, k2, k3, k4, k5, k6⟩ e sane
  rename_i t
  let ts := t.tokens.take (n - t.tokensParsed) ++ { data := d, start := m1, stop := m2 } :: t.tokens.drop (n - t.tokensParsed)
  have hins : t.insert n { data := d, start := m1, stop := m2 } = .ok { t with tokens := ts } := by unfold Scanner.insert; rw [if_neg hu]
  unfold fInsert
  have hpd := h2.parsed
  rw [hw_ite, if_neg (fun h => hu (.inl (by rw [← hpd]; exact h))), hw_bind]
  refine hw_qInsert (bs' := b2 ++ (b3 ++ (b4 ++ (b5 ++ c)))) k1 (by have := k2.length; omega) e (by blocks_by k6) (fun h' e' ha => ?_) (fun h' q' x' j1 e' => ?_)
  · exact ⟨⟨_, _, _, b, ⟨rfl, h1, h2, vs, b1, b2, b3, b4, b5, k1, k2, k3, k4, k5, k6⟩, e'⟩, .inr ⟨.inr rfl, fun a => absurd a ha⟩⟩
  · rw [hpd] at j1
    obtain ⟨y, z, j2, j3, rfl⟩ := k2.split (n - t.tokensParsed)
    have hone : SameToken (plainToken d m1 m2) { data := d, start := m1, stop := m2 } [] := plain_same hd
    have hall := j2.append ((TokensAt.one hone).append j3)
    exact fin_act hins (b := x' ++ ((y ++ z) ++ (b3 ++ (b4 ++ b5)))) ⟨rfl, h1, ⟨h2.1, h2.2, h2.3, h2.4, h2.5, h2.6, h2.7⟩, _, x', y ++ z, b3, b4, b5, j1,
      hall, k3, k4, k5, List.Perm.refl _⟩ (e'.perm (by blocks))

theorem fr_pushKey {k : SimpleKey} {g : Scanner → Except Fail Scanner} (hg : g s = .ok { s with keys := k :: s.keys }) :
    FAct o A base s c (fPushKey k) g := by
  rintro hs _ inp b hh ⟨rfl, h1, h2, vs, b1, b2, b3, b4, b5, k1, k2, k3, k4, k5, k6⟩ e sane
  unfold fPushKey
  rw [hw_bind]
  refine hw_stk_push (bs' := b1 ++ (b2 ++ (b3 ++ (b5 ++ c)))) k4 e (by blocks_by k6) (fun h' e' ha => ?_) (fun h' q' x' j1 e' => ?_)
  · exact ⟨⟨_, _, _, b, ⟨rfl, h1, h2, vs, b1, b2, b3, b4, b5, k1, k2, k3, k4, k5, k6⟩, e'⟩, .inr ⟨.inr rfl, fun a => .inr (ha a)⟩⟩
  · exact fin_act hg (b := b1 ++ (b2 ++ (b3 ++ (x' ++ b5)))) ⟨rfl, h1, ⟨h2.1, h2.2, h2.3, h2.4, h2.5, h2.6, h2.7⟩, vs, b1, b2, b3, x', b5, k1,
      k2, k3, j1, k5, List.Perm.refl _⟩ (e'.perm (by blocks))

theorem fr_pushIndent {g : Scanner → Except Fail Scanner} (hg : g s = .ok { s with indents := s.indent :: s.indents }) :
    FAct o A base s c fPushIndent g := by
  rintro hs _ inp b hh ⟨rfl, h1, h2, vs, b1, b2, b3, b4, b5, k1, k2, k3, k4, k5, k6⟩ e sane
  unfold fPushIndent
  rw [hw_bind]
  refine hw_stk_push (bs' := b1 ++ (b2 ++ (b4 ++ (b5 ++ c)))) k3 e (by blocks_by k6) (fun h' e' ha => ?_) (fun h' q' x' j1 e' => ?_)
  · exact ⟨⟨_, _, _, b, ⟨rfl, h1, h2, vs, b1, b2, b3, b4, b5, k1, k2, k3, k4, k5, k6⟩, e'⟩, .inr ⟨.inr rfl, fun a => .inl (ha a)⟩⟩
  · rw [h2.indent] at j1
    exact fin_act hg (b := b1 ++ (b2 ++ (x' ++ (b4 ++ b5)))) ⟨rfl, h1, ⟨h2.1, h2.2, h2.3, h2.4, h2.5, h2.6, h2.7⟩, vs, b1, b2, x', b4, b5, k1,
      k2, j1, k4, k5, List.Perm.refl _⟩ (e'.perm (by blocks))

theorem fr_popIndent {i : Int} {is : List Int} (hi : s.indents = i :: is) {g : Scanner → Except Fail Scanner}
    (hg : g s = .ok { s with indent := i, indents := is }) : FAct o A base s c fPopIndent g := by
  rintro hs _ inp b hh ⟨rfl, h1, h2, vs, b1, b2, b3, b4, b5, k1, k2, k3, k4, k5, k6⟩ e sane
  unfold fPopIndent
  rw [hw_bind]
  rw [hi] at k3
  refine hw_stk_pop (bs' := b1 ++ (b2 ++ (b4 ++ (b5 ++ c)))) k3 e (by blocks_by k6) (fun h' q' x' j1 e' => ?_)
  exact fin_act hg (b := b1 ++ (b2 ++ (x' ++ (b4 ++ b5)))) ⟨rfl, h1, ⟨h2.1, h2.2, h2.3, h2.4, h2.5, rfl, h2.7⟩, vs, b1, b2, x', b4, b5, k1,
      k2, j1, k4, k5, List.Perm.refl _⟩ (e'.perm (by blocks))

theorem fr_decreaseFlow : FAct o A base s c fDecreaseFlow Scanner.decreaseFlow := by
  cases hl : s.flowLevel with
  | zero =>
    have hg : s.decreaseFlow = .ok s := by unfold Scanner.decreaseFlow; rw [hl]
    rintro hs _ inp b hh ⟨rfl, h1, h2, hr⟩ e sane
    unfold fDecreaseFlow
    rw [h2.flow, hl, hw_ite, if_pos rfl, hw_pure]
    exact fin_act hg (b := b) ⟨rfl, h1, h2, hr⟩ (e)
  | succ l =>
    cases hk : s.keys with
    | nil => exact fr_ub (by unfold Scanner.decreaseFlow; rw [hl, hk])
    | cons k ks =>
      have hg : s.decreaseFlow = .ok { s with keys := ks, flowLevel := l } := by unfold Scanner.decreaseFlow; rw [hl, hk]
      rintro hs _ inp b hh ⟨rfl, h1, h2, vs, b1, b2, b3, b4, b5, k1, k2, k3, k4, k5, k6⟩ e sane
      unfold fDecreaseFlow
      rw [h2.flow, hl, hw_ite, if_neg (by omega), hw_bind]
      rw [hk] at k4
      refine hw_stk_pop (bs' := b1 ++ (b2 ++ (b3 ++ (b5 ++ c)))) k4 e (by blocks_by k6) (fun h' q' x' j1 e' => ?_)
      exact fin_act hg (b := b1 ++ (b2 ++ (b3 ++ (x' ++ b5)))) ⟨rfl, h1, ⟨h2.1, h2.2, h2.3, rfl, h2.5, h2.6, h2.7⟩, vs, b1, b2, b3, x', b5, k1,
        k2, k3, j1, k5, List.Perm.refl _⟩ (e'.perm (by blocks))

/-- Reading a key. -/
theorem hw_stk_get {γ : Type} [Cell γ] [LawfulCell γ] {vs ws : List γ} {v : γ} {st : HStk} {x bs : Blocks} {h : Heap} {Q : γ → Heap → Prop} {i : Nat}
    (hs : StkAt (vs ++ v :: ws) st x) (hi : i = ws.length) (e : Ext A base bs h) (hx : ∀ y ∈ x, y ∈ bs) (hQ : Q v h) : hw (hGet i st) Q h := by
  obtain ⟨a, n, rfl, hv, rfl⟩ := hs
  exact hw_get e (hx _ List.mem_cons_self) (by rw [hi]; simp) hQ

/-- Writing a key. -/
theorem hw_stk_set {γ : Type} [Cell γ] [LawfulCell γ] {vs ws : List γ} {v w : γ} {st : HStk} {x bs bs' : Blocks} {h : Heap} {Q : Unit → Heap → Prop} {i : Nat}
    (hs : StkAt (vs ++ v :: ws) st x) (hi : i = ws.length) (e : Ext A base bs h) (hp : bs.Perm (x ++ bs'))
    (hQ : ∀ h' x', StkAt (vs ++ w :: ws) st x' → Ext A base (x' ++ bs') h' → Q () h') : hw (hSet i w st) Q h := by
  obtain ⟨a, n, rfl, hv, rfl⟩ := hs
  refine hw_set (vs := ws.reverse) (v := v) (ws := vs.reverse) (n := n) e (by simpa using hp) (by simpa using hi) fun h' e' => ?_
  refine hQ h' [(a, stkObj (ws.reverse ++ w :: vs.reverse) n)] ⟨a, n, by simp, .inl (by simp), by simp⟩ e'

theorem fr_topKey {k : SimpleKey} {ks : List SimpleKey} (hk : s.keys = k :: ks) {k' : SimpleKey → HF β} {x : SM α} {Q : β → α → Scanner → Blocks → Prop}
    (h : FRel o A base s c keep (k' k) x Q) : FRel o A base s c keep (fTopKey >>= k') x Q := by
  rintro hs _ inp b hh ⟨rfl, h1, h2, vs, b1, b2, b3, b4, b5, k1, k2, k3, k4, k5, k6⟩ e sane
  rw [xw_bind]
  unfold fTopKey
  have htop : hs.keys.top = ks.length + 1 := by
    obtain ⟨a, n, j, _⟩ := k4
    rw [j, hk]
    rfl
  rw [htop, hw_ite, if_neg (by omega), hw_bind]
  refine hw_stk_get (vs := []) (v := k) (ws := ks) (by rw [hk] at k4; exact k4) (by omega) e ?_ ?_
  · intro y hy
    refine List.mem_append_left _ (k6.mem_iff.mpr ?_)
    simp [hy]
  · rw [hw_pure]
    exact h hs _ inp b hh ⟨rfl, h1, h2, vs, b1, b2, b3, b4, b5, k1, k2, k3, k4, k5, k6⟩ e sane

theorem fr_setKey {k k' : SimpleKey} {ks : List SimpleKey} (hk : s.keys = k :: ks) {g : Scanner → Except Fail Scanner}
    (hg : g s = .ok { s with keys := k' :: ks }) : FAct o A base s c (fSetKey k') g := by
  rintro hs _ inp b hh ⟨rfl, h1, h2, vs, b1, b2, b3, b4, b5, k1, k2, k3, k4, k5, k6⟩ e sane
  unfold fSetKey
  have htop : hs.keys.top = ks.length + 1 := by
    obtain ⟨a, n, j, _⟩ := k4
    rw [j, hk]
    rfl
  rw [htop, hw_ite, if_neg (by omega), hw_bind]
  refine hw_stk_set (vs := []) (v := k) (w := k') (ws := ks) (bs' := b1 ++ (b2 ++ (b3 ++ (b5 ++ c)))) (by rw [hk] at k4; exact k4) (by omega) e
    (by blocks_by k6) fun h' x' j1 e' => ?_
  rw [hw_pure]
  exact fin_act hg (b := b1 ++ (b2 ++ (b3 ++ (x' ++ b5)))) ⟨rfl, h1, ⟨h2.1, h2.2, h2.3, h2.4, h2.5, h2.6, h2.7⟩, vs, b1, b2, b3, x', b5, k1,
    k2, k3, j1, k5, List.Perm.refl _⟩ (e'.perm (by blocks))

end

end LibYaml
