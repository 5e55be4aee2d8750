import Verif.Model.ParserHeap
import Verif.Proofs.DumperHeap
import Verif.Spec.ParserHeap

/-!
# The parser on the heap: helper lemmas

`HRel A base P m v Q`: started from a heap parser and a value parser related by `P`, the program `m` on the heap ends without undefined behaviour if
`v` does. If it succeeds so does `v`, and the results are related by `Q`. If it fails, the parser object still owns everything that is left, and with
enough memory `v` fails with the same error.
-/

namespace LibYaml

open Spec

set_option linter.unusedSectionVars false

variable {ρ σ α α' β β' : Type}

/-- Are all tokens clean, too? -/
class Strict where
  strict : Prop

def TokOk [Strict] (d : TokData) : Prop := ReadableTok d ∧ (Strict.strict → CleanTok d)

/-- The blocks that a scanner in this state owns, even after a failure, and whether one of its stacks cannot grow further. -/
class SrcMem (ρ : Type) where
  left : ρ → Blocks → Prop
  full : ρ → Prop

/-- A scanner with memory in this state does what the source of tokens in that state does, and owns these blocks. -/
class SrcLink (ρ σ : Type) [SrcMem ρ] where
  own : ρ → σ → Blocks → Prop
  left : ∀ {x : ρ} {y : σ} {b : Blocks}, own x y b → SrcMem.left x b

/-! ### Tokens -/

/-- A token, the token in the heap, and its blocks. -/
def TokAt : TokData → HTokData → Blocks → Prop
  | .tagDirective d, t, b => ∃ p q x y, t = .tagDirective p q ∧ StrAt (some (textBytes d.handle)) p x ∧ StrAt (some (textBytes d.pfx)) q y ∧ b = x ++ y
  | .alias a, t, b => ∃ p, t = .alias p ∧ StrAt (some (textBytes a)) p b
  | .anchor a, t, b => ∃ p, t = .anchor p ∧ StrAt (some (textBytes a)) p b
  | .tag h s, t, b => ∃ p q x y, t = .tag p q ∧ StrAt (some (textBytes h)) p x ∧ StrAt (some (textBytes s)) q y ∧ b = x ++ y
  | .scalar v st, t, b => ∃ p, t = .scalar p (textBytes v).length st ∧ StrAt (some (textBytes v)) p b
  | d, t, b => t = .plain d ∧ b = []

/-- A token of the value parser, the token in the heap, and its blocks. -/
def TokenAt [Strict] (t : Token) (ht : HToken) (b : Blocks) : Prop :=
  ∃ d, t.data = cutTok d ∧ TokOk d ∧ TokAt d ht.data b ∧ ht.start = t.start ∧ ht.stop = t.stop

def AvailAt [Strict] : Option Token → Option HToken → Blocks → Prop
  | none, o, b => o = none ∧ b = []
  | some t, o, b => ∃ ht, o = some ht ∧ TokenAt t ht b

/-! ### The parser object -/

/-- A stack with its top first. -/
def StkAt [Cell α] (vs : List α) (s : HStk) (b : Blocks) : Prop :=
  ∃ a n, s = ⟨some a, vs.length⟩ ∧ (vs ≠ [] ∨ n ≠ 0) ∧ b = [(a, stkObj vs.reverse n)]

/-- A stack of directives. -/
def DirStk (ds : List TagDir) (s : HStk) (b : Blocks) : Prop :=
  ∃ a n vs x, s = ⟨some a, vs.length⟩ ∧ (vs ≠ [] ∨ n ≠ 0) ∧ DirsAt (ds.map dirText) vs x ∧ b = (a, stkObj vs n) :: x

/-- A directive whose strings are C strings. -/
def CDir (d : TagDir) : Prop := AnchorText d.handle ∧ CText d.pfx

/-- The heap parser, the value parser, and the blocks that the former owns. -/
def Own [SrcMem ρ] [SrcLink ρ σ] [Strict] (p : HPS ρ) (s : PS σ) (b : Blocks) : Prop :=
  ∃ x1 x2 x3 x4 x5, StkAt s.states p.states x1 ∧ StkAt s.marks p.marks x2 ∧ DirStk s.tags p.tags x3 ∧ AvailAt s.avail p.avail x4 ∧ SrcLink.own p.src s.src x5 ∧
    (∀ d ∈ s.tags, CDir d) ∧ p.ended = s.ended ∧ p.state = s.state ∧ b.Perm (x1 ++ (x2 ++ (x3 ++ (x4 ++ x5))))

/-- The heap parser and the blocks that it owns, even after a failure. -/
def Left [SrcMem ρ] (p : HPS ρ) (b : Blocks) : Prop :=
  letI : Strict := ⟨False⟩
  ∃ vs ms ds av x1 x2 x3 x4 x5, StkAt (α := PState) vs p.states x1 ∧ StkAt (α := Mark) ms p.marks x2 ∧ DirStk ds p.tags x3 ∧ AvailAt av p.avail x4 ∧
    SrcMem.left p.src x5 ∧ b.Perm (x1 ++ (x2 ++ (x3 ++ (x4 ++ x5))))

variable [SrcMem ρ] [SrcLink ρ σ] [Strict]

/-- The scanner with memory `H` refines the source of tokens `S`. -/
structure Link (H : HSrc ρ) (S : TokSrc σ) : Prop where
  next : ∀ {A : Prop} {base : Nat → Option Obj} {x : ρ} {y : σ} {b fr : Blocks} {h : Heap}, SrcLink.own x y b → Ext A base (b ++ fr) h →
    S.next y ≠ .error .ub → S.next y ≠ .error .fuel → hw (H.next x) (fun r h' => match r.1 with
      | .ok ht => ∃ t y' b' bt, S.next y = .ok (t, y') ∧ TokOk t.data ∧ TokAt t.data ht.data bt ∧ ht.start = t.start ∧ ht.stop = t.stop ∧
          SrcLink.own r.2 y' b' ∧ Ext A base (bt ++ (b' ++ fr)) h'
      | .error e => (∃ b', SrcMem.left r.2 b' ∧ Ext A base (b' ++ fr) h') ∧ (S.next y = .error e ∨ (e = .memory ∧ (A → SrcMem.full r.2)))) h
  depth : ∀ {x : ρ} {y : σ} {b : Blocks}, SrcLink.own x y b → H.depth x = S.depth y

/-- All blocks can be freed. -/
structure SrcCloses (H : HSrc ρ) : Prop where
  close : ∀ {A : Prop} {base : Nat → Option Obj} {x : ρ} {b fr : Blocks} {h : Heap} {Q : Unit → Heap → Prop}, SrcMem.left x b → Ext A base (b ++ fr) h →
    (∀ h', Ext A base fr h' → Q () h') → hw (H.close x) Q h

/-- The scanner with memory starts like the source in state `y`. -/
structure SrcStarts (H : HSrc ρ) (y : σ) : Prop extends SrcCloses H where
  start : ∀ {A : Prop} {base : Nat → Option Obj} {fr : Blocks} {h : Heap} {Q : Bool × ρ → Heap → Prop}, Ext A base fr h →
    (∀ h' x, Ext A base fr h' → ¬ A → Q (false, x) h') → (∀ h' x b, SrcLink.own x y b → Ext A base (b ++ fr) h' → Q (true, x) h') → hw H.start Q h

/-- A stack cannot grow further. -/
def Full (p : HPS ρ) : Prop := stackLimit PState p.states.top ∨ stackLimit Mark p.marks.top ∨ stackLimit (Ptr × Ptr) p.tags.top ∨ SrcMem.full p.src

theorem Own.left {p : HPS ρ} {s : PS σ} {b : Blocks} (h : Own p s b) : Left p b := by
  obtain ⟨x1, x2, x3, x4, x5, k1, k2, k3, k4, k5, k6, k7, k8, k9⟩ := h
  refine ⟨_, _, _, s.avail, x1, x2, x3, x4, x5, k1, k2, k3, ?_, SrcLink.left k5, k9⟩
  cases ha : s.avail with
  | none => rw [ha] at k4; exact k4
  | some t =>
    rw [ha] at k4
    obtain ⟨ht, j1, d, j2, j3, j4⟩ := k4
    exact ⟨ht, j1, d, j2, ⟨j3.1, fun hx => hx.elim⟩, j4⟩

/-- The parser owns its blocks, local variables own `l`, the current token is `cur`, and the directives satisfy `J`. -/
def St (J : List TagDir → Prop) (cur : Option (HToken × Token)) (l : Blocks) (p : HPS ρ) (s : PS σ) (b : Blocks) : Prop :=
  ∃ b0, Own p s b0 ∧ ((∀ x ∈ cur, p.avail = some x.1 ∧ s.avail = some x.2) ∧ J s.tags) ∧ b.Perm (l ++ b0)

/-- What a program on the heap does in comparison with one on values. -/
def HPost (A : Prop) (base : Nat → Option Obj) (fr : Blocks) (Q : α' → α → HPS ρ → PS σ → Blocks → Prop) (v : Except Fail (α × PS σ))
    (r : Except Fail α' × HPS ρ) (h : Heap) : Prop :=
  match r.1 with
  | .ok a' => ∃ a s b, v = .ok (a, s) ∧ Q a' a r.2 s b ∧ Ext A base (b ++ fr) h
  | .error e => (∃ b, Left r.2 b ∧ Ext A base (b ++ fr) h) ∧ (v = .error e ∨ (e = .memory ∧ (A → Full r.2)))

def HRel (A : Prop) (base : Nat → Option Obj) (P : HPS ρ → PS σ → Blocks → Prop) (m : HP ρ α') (v : PM σ α)
    (Q : α' → α → HPS ρ → PS σ → Blocks → Prop) : Prop :=
  ∀ p s b fr h, P p s b → Ext A base (b ++ fr) h → v s ≠ .error .ub → v s ≠ .error .fuel → hw (m p) (HPost A base fr Q (v s)) h

/-! ### Rules -/

theorem pm_bind (m : PM σ α) (k : α → PM σ β) (s : PS σ) : (m >>= k) s = match m s with
    | .error e => .error e
    | .ok (a, s') => k a s' := by
  show StateT.bind m k s = _
  unfold StateT.bind
  cases m s <;> rfl

theorem hw_hp_bind {m : HP ρ α} {k : α → HP ρ β} {p : HPS ρ} {Q : Except Fail β × HPS ρ → Heap → Prop} {h : Heap} :
    hw ((m >>= k) p) Q h ↔ hw (m p) (fun r h' => match r.1 with
      | .error e => Q (.error e, r.2) h'
      | .ok a => hw (k a r.2) Q h') h := by
  show hw (HP.bind m k p) Q h ↔ _
  unfold hw HP.bind
  cases m p h with
  | error e => exact Iff.rfl
  | ok x =>
    obtain ⟨⟨r, q⟩, h'⟩ := x
    cases r <;> exact Iff.rfl

section
variable {A : Prop} {base : Nat → Option Obj} {J : List TagDir → Prop} {P P' : HPS ρ → PS σ → Blocks → Prop}

theorem hrel_bind {m : HP ρ α'} {v : PM σ α} {k' : α' → HP ρ β'} {k : α → PM σ β} {R : α' → α → HPS ρ → PS σ → Blocks → Prop}
    {Q : β' → β → HPS ρ → PS σ → Blocks → Prop} (h1 : HRel A base P m v R) (h2 : ∀ a' a, HRel A base (R a' a) (k' a') (k a) Q) :
    HRel A base P (m >>= k') (v >>= k) Q := by
  intro p s b fr h hp e hu hf
  rw [hw_hp_bind]
  rw [pm_bind] at hu hf
  have hu1 : v s ≠ .error .ub := fun hx => by rw [hx] at hu; exact hu rfl
  have hf1 : v s ≠ .error .fuel := fun hx => by rw [hx] at hf; exact hf rfl
  refine hw_mono (h1 p s b fr h hp e hu1 hf1) fun r h' hr => ?_
  obtain ⟨r, q⟩ := r
  cases r with
  | error e' =>
    obtain ⟨hr1, hr2⟩ := hr
    refine ⟨hr1, ?_⟩
    rcases hr2 with hx | hx
    · left; rw [pm_bind, hx]
    · exact .inr hx
  | ok a' =>
    obtain ⟨a, s', b', hv, hR, e'⟩ := hr
    rw [hv] at hu hf
    have := h2 a' a q s' b' fr h' hR e' hu hf
    refine hw_mono this fun r h'' hr => ?_
    have hv2 : (v >>= k) s = k a s' := by rw [pm_bind, hv]
    rw [hv2]
    exact hr

theorem hrel_pre {m : HP ρ α'} {v : PM σ α} {Q : α' → α → HPS ρ → PS σ → Blocks → Prop} (h1 : HRel A base P m v Q) (hp : ∀ p s b, P' p s b → P p s b) :
    HRel A base P' m v Q :=
  fun p s b fr h h2 e hu hf => h1 p s b fr h (hp p s b h2) e hu hf

theorem hrel_post {m : HP ρ α'} {v : PM σ α} {Q Q' : α' → α → HPS ρ → PS σ → Blocks → Prop} (h1 : HRel A base P m v Q)
    (hq : ∀ a' a p s b, Q a' a p s b → Q' a' a p s b) : HRel A base P m v Q' := by
  intro p s b fr h h2 e hu hf
  refine hw_mono (h1 p s b fr h h2 e hu hf) fun r h' hr => ?_
  obtain ⟨r, q⟩ := r
  cases r with
  | error e' => exact hr
  | ok a' =>
    obtain ⟨a, s', b', hv, hR, e'⟩ := hr
    exact ⟨a, s', b', hv, hq _ _ _ _ _ hR, e'⟩

theorem hrel_pure {a' : α'} {a : α} {Q : α' → α → HPS ρ → PS σ → Blocks → Prop} (h : ∀ p s b, P p s b → Q a' a p s b) :
    HRel A base P (pure a') (pure a) Q :=
  fun p s b _ _ hp e _ _ => ⟨a, s, b, rfl, h p s b hp, e⟩

theorem hrel_ite {c c' : Prop} [Decidable c] [Decidable c'] {m n : HP ρ α'} {v w : PM σ α} {Q : α' → α → HPS ρ → PS σ → Blocks → Prop} (hc : c' ↔ c)
    (h1 : c → HRel A base P m v Q) (h2 : ¬ c → HRel A base P n w Q) : HRel A base P (if c' then m else n) (if c then v else w) Q := by
  by_cases h : c
  · rw [if_pos h, if_pos (hc.mpr h)]; exact h1 h
  · rw [if_neg h, if_neg (fun hx => h (hc.mp hx))]; exact h2 h

/-- A cleanup frees exactly these blocks. -/
def Frees (clean : HM Unit) (l : Blocks) : Prop :=
  ∀ (A : Prop) (base : Nat → Option Obj) (bs bs' : Blocks) (h : Heap) (Q : Unit → Heap → Prop), Ext A base bs h → bs.Perm (l ++ bs') →
    (∀ h', Ext A base bs' h' → Q () h') → hw clean Q h

theorem hw_orFree {m : HP ρ α} {clean : HM Unit} {p : HPS ρ} {Q : Except Fail α × HPS ρ → Heap → Prop} {h : Heap} :
    hw (orFree m clean p) Q h ↔ hw (m p) (fun r h' => match r.1 with
      | .error e => hw clean (fun _ h'' => Q (.error e, r.2) h'') h'
      | .ok a => Q (.ok a, r.2) h') h := by
  unfold hw orFree
  cases m p h with
  | error e => exact Iff.rfl
  | ok x =>
    obtain ⟨⟨r, q⟩, h'⟩ := x
    cases r with
    | ok a => exact Iff.rfl
    | error e =>
      simp only
      cases clean h' <;> exact Iff.rfl

theorem hrel_orFree {c : Option (HToken × Token)} {l : Blocks} {clean : HM Unit} {m : HP ρ α'} {v : PM σ α} {Q : α' → α → HPS ρ → PS σ → Blocks → Prop}
    (h1 : HRel A base (St J c []) m v Q) (hl : Frees clean l) :
    HRel A base (St J c l) (orFree m clean) v (fun a' a p s b => ∃ b0, Q a' a p s b0 ∧ b.Perm (l ++ b0)) := by
  intro p s b fr h hp e hu hf
  rw [hw_orFree]
  obtain ⟨b0, ho, hc, hb⟩ := hp
  refine hw_mono (h1 p s b0 (l ++ fr) h ⟨b0, ho, hc, List.Perm.refl _⟩ (e.perm (by blocks_by hb)) hu hf) fun r h' hr => ?_
  obtain ⟨r, q⟩ := r
  cases r with
  | ok a' =>
    obtain ⟨a, s', b', hv, hR, e'⟩ := hr
    exact ⟨a, s', l ++ b', hv, ⟨b', hR, List.Perm.refl _⟩, e'.perm (by blocks)⟩
  | error e' =>
    obtain ⟨⟨b', ho', e1⟩, hr2⟩ := hr
    exact hl A base _ (b' ++ fr) h' _ e1 (by blocks) fun h'' e2 => ⟨⟨b', ho', e2⟩, hr2⟩

theorem hrel_fail {c : Option (HToken × Token)} {e : Fail} {Q : α' → α → HPS ρ → PS σ → Blocks → Prop} : HRel A base (St J c []) (hfail e) (pfail e) Q := by
  intro p s b fr h hp ex hu hf
  obtain ⟨b0, ho, hc, hb⟩ := hp
  exact ⟨⟨b0, ho.left, ex.perm (by blocks_by hb)⟩, .inl rfl⟩

theorem hrel_stop {c : Option (HToken × Token)} {e : Fail} {l : Blocks} {clean : HM Unit} {Q : α' → α → HPS ρ → PS σ → Blocks → Prop} (hl : Frees clean l) :
    HRel A base (St J c l) (hstop e clean) (pfail e) Q := by
  refine hrel_post (hrel_orFree (Q := fun _ _ _ _ _ => False) hrel_fail hl) ?_
  rintro a' a p s b ⟨b0, h, _⟩
  exact h.elim

/-- A failure for lack of memory. -/
theorem hrel_nomem {c : Option (HToken × Token)} {l : Blocks} {clean : HM Unit} {v : PM σ α} {Q : α' → α → HPS ρ → PS σ → Blocks → Prop} (hA : ¬ A)
    (hl : Frees clean l) : HRel A base (St J c l) (hstop .memory clean) v Q := by
  intro p s b fr h hp ex hu hf
  unfold hstop
  rw [hw_orFree]
  obtain ⟨b0, ho, hc, hb⟩ := hp
  exact hl A base _ (b0 ++ fr) h _ ex (by blocks_by hb) fun h'' e2 => ⟨⟨b0, ho.left, e2⟩, .inr ⟨rfl, fun a => absurd a hA⟩⟩

/-- A program that only works on local variables. -/
theorem hrel_lift {m : HM α'} {k : α' → HP ρ β'} {v : PM σ β} {Q : β' → β → HPS ρ → PS σ → Blocks → Prop}
    (h1 : ∀ p s b fr h, P p s b → Ext A base (b ++ fr) h →
      hw m (fun a h' => ∃ (R : HPS ρ → PS σ → Blocks → Prop) (b' : Blocks), R p s b' ∧ Ext A base (b' ++ fr) h' ∧ HRel A base R (k a) v Q) h) :
    HRel A base P (hlift m >>= k) v Q := by
  intro p s b fr h hp e hu hf
  rw [hw_hp_bind]
  have := h1 p s b fr h hp e
  have key : hw (hlift m p) (fun r h' => ∃ a R b', r = (.ok a, p) ∧ R p s b' ∧ Ext A base (b' ++ fr) h' ∧ HRel A base R (k a) v Q) h := by
    unfold hw hlift
    unfold hw at this
    cases hm : m h with
    | error x => rw [hm] at this; exact this
    | ok x =>
      obtain ⟨a, h'⟩ := x
      rw [hm] at this
      obtain ⟨R, b', k1, k2, k3⟩ := this
      exact ⟨a, R, b', rfl, k1, k2, k3⟩
  refine hw_mono key fun r h' hr => ?_
  obtain ⟨a, R, b', rfl, k1, k2, k3⟩ := hr
  exact k3 p s b' fr h' k1 k2 hu hf

end

/-! ### Tokens and stacks -/

/-- Tokens without strings. -/
def TokData.isPlain : TokData → Bool
  | .tagDirective _ | .alias _ | .anchor _ | .tag _ _ | .scalar _ _ => false
  | _ => true

theorem tok_plain {t : Token} {ht : HToken} {x : Blocks} {d : TokData} (h : TokenAt t ht x) (hd : d.isPlain = true) : ht.data = .plain d ↔ t.data = d := by
  obtain ⟨T, h1, _, h2, _⟩ := h
  rw [h1]
  cases T with
  | tagDirective T => obtain ⟨p, q, _, _, h2, _⟩ := h2; rw [h2]; cases d <;> simp_all [cutTok, TokData.isPlain]
  | «alias» T => obtain ⟨p, h2, _⟩ := h2; rw [h2]; cases d <;> simp_all [cutTok, TokData.isPlain]
  | anchor T => obtain ⟨p, h2, _⟩ := h2; rw [h2]; cases d <;> simp_all [cutTok, TokData.isPlain]
  | tag T U => obtain ⟨p, q, _, _, h2, _⟩ := h2; rw [h2]; cases d <;> simp_all [cutTok, TokData.isPlain]
  | scalar T U => obtain ⟨p, h2, _⟩ := h2; rw [h2]; cases d <;> simp_all [cutTok, TokData.isPlain]
  | _ => rw [h2.1]; simp [cutTok]

theorem tok_nil {t : Token} {ht : HToken} {x : Blocks} (h : TokenAt t ht x) (hd : t.data.isPlain = true) : x = [] ∧ ht.data = .plain t.data := by
  have hp := (tok_plain h hd).mpr rfl
  refine ⟨?_, hp⟩
  obtain ⟨T, h1, _, h2, _⟩ := h
  rw [h1] at hd
  cases T <;> first | exact h2.2 | cases hd

section
variable {A : Prop} {base : Nat → Option Obj} {J : List TagDir → Prop} {c : Option (HToken × Token)} {l : Blocks} {Q : β' → β → HPS ρ → PS σ → Blocks → Prop}

theorem hw_giveToken {bs : Blocks} {h : Heap} {d : TokData} {Q : HTokData → Heap → Prop} (e : Ext A base bs h)
    (h1 : ∀ h' t x, TokAt d t x → Ext A base (x ++ bs) h' → Q t h') : hw (giveToken d) Q h := by
  cases d with
  | tagDirective d =>
    unfold giveToken
    rw [hw_bind]
    refine hw_giveText e fun h2 p x k1 e2 => ?_
    rw [hw_bind]
    refine hw_giveText e2 fun h3 q y k2 e3 => ?_
    exact h1 h3 _ (x ++ y) ⟨p, q, x, y, rfl, k1, k2, rfl⟩ (e3.perm (by blocks))
  | «alias» a =>
    unfold giveToken
    rw [hw_bind]
    exact hw_giveText e fun h2 p x k1 e2 => h1 h2 _ x ⟨p, rfl, k1⟩ e2
  | anchor a =>
    unfold giveToken
    rw [hw_bind]
    exact hw_giveText e fun h2 p x k1 e2 => h1 h2 _ x ⟨p, rfl, k1⟩ e2
  | tag a b =>
    unfold giveToken
    rw [hw_bind]
    refine hw_giveText e fun h2 p x k1 e2 => ?_
    rw [hw_bind]
    refine hw_giveText e2 fun h3 q y k2 e3 => ?_
    exact h1 h3 _ (x ++ y) ⟨p, q, x, y, rfl, k1, k2, rfl⟩ (e3.perm (by blocks))
  | scalar v st =>
    unfold giveToken
    rw [hw_bind]
    exact hw_giveText e fun h2 p x k1 e2 => h1 h2 _ x ⟨p, rfl, k1⟩ e2
  | _ => exact h1 h _ [] ⟨rfl, rfl⟩ e

theorem hrel_peek {H : HSrc ρ} {S : TokSrc σ} (hS : Link H S) :
    HRel A base (St J c []) (hPeek H) (peek (cutSrc S)) (fun ht t p s b => (∃ x, TokenAt t ht x) ∧ St J (some (ht, t)) [] p s b) := by
  intro p s b fr h hp e hu hf
  obtain ⟨b0, ho, hc, hb⟩ := hp
  have hb : b.Perm b0 := hb
  obtain ⟨x1, x2, x3, x4, x5, k1, k2, k3, k4, k5, k6, k8, k9, k10⟩ := ho
  unfold hw hPeek peek
  cases hs : s.avail with
  | some t =>
    rw [hs] at k4
    obtain ⟨ht, k11, k12⟩ := k4
    simp only [k11]
    refine ⟨t, s, b, by simp, ⟨⟨x4, k12⟩, b0, ⟨x1, x2, x3, x4, x5, k1, k2, k3, ?_, k5, k6, k8, k9, k10⟩, ⟨?_, hc.2⟩, hb⟩, e⟩
    · rw [hs]; exact ⟨ht, k11, k12⟩
    · rintro x hx
      cases hx
      exact ⟨k11, hs⟩
  | none =>
    rw [hs] at k4
    obtain ⟨k11, rfl⟩ := k4
    have hpeek : peek (cutSrc S) s = match S.next s.src with
        | .error e => .error e
        | .ok (t, y) => .ok ({ t with data := cutTok t.data }, { s with avail := some { t with data := cutTok t.data }, src := y }) := by
      unfold peek cutSrc
      simp only [hs]
      cases S.next s.src <;> rfl
    have hu' : S.next s.src ≠ .error .ub := fun hx => hu (by rw [hpeek, hx])
    have hf' : S.next s.src ≠ .error .fuel := fun hx => hf (by rw [hpeek, hx])
    have hb2 := hb.trans k10
    have := hS.next (fr := (x1 ++ (x2 ++ x3)) ++ fr) k5 (e.perm (by blocks_by hb2)) hu' hf'
    simp only [k11]
    obtain ⟨⟨r, src⟩, h', j0, hr⟩ := hw_out this
    cases r with
    | error x =>
      obtain ⟨⟨b', j1, j2⟩, j3⟩ := hr
      simp only [j0, cutSrc]
      refine ⟨⟨x1 ++ (x2 ++ (x3 ++ ([] ++ b'))), ⟨_, _, _, none, x1, x2, x3, [], b', k1, k2, k3, ⟨rfl, rfl⟩, j1, List.Perm.refl _⟩, j2.perm (by blocks)⟩, ?_⟩
      rcases j3 with j3 | ⟨rfl, j3⟩
      · left; rw [j3]
      · exact .inr ⟨rfl, fun a => .inr (.inr (.inr (j3 a)))⟩
    | ok t' =>
      obtain ⟨t, y, b', bt, j1, j2, j3, j4, j5, j6, j7⟩ := hr
      simp only [j0, cutSrc, j1]
      have ht : TokenAt { t with data := cutTok t.data } t' bt := ⟨t.data, rfl, j2, j3, j4, j5⟩
      refine ⟨_, _, x1 ++ (x2 ++ (x3 ++ (bt ++ b'))), rfl, ⟨⟨bt, ht⟩, _, ⟨x1, x2, x3, bt, b', k1, k2, k3, ⟨_, rfl, ht⟩, j6, k6, k8, k9, List.Perm.refl _⟩, ⟨?_, hc.2⟩,
        List.Perm.refl _⟩, j7.perm (by blocks)⟩
      rintro x hx
      cases hx
      exact ⟨rfl, rfl⟩

theorem hrel_peekB {H : HSrc ρ} {S : TokSrc σ} (hS : Link H S) {k' : HToken → HP ρ β'} {k : Token → PM σ β}
    (h : ∀ ht t x, TokenAt t ht x → HRel A base (St J (some (ht, t)) []) (k' ht) (k t) Q) :
    HRel A base (St J c []) (hPeek H >>= k') (peek (cutSrc S) >>= k) Q := by
  refine hrel_bind (hrel_peek hS) fun ht t => ?_
  rintro p s b fr hp ⟨⟨x, hx⟩, hst⟩ e hu hf
  exact h ht t x hx p s b fr hp hst e hu hf

/-- The same if local variables own something. -/
theorem hrel_peekF {H : HSrc ρ} {S : TokSrc σ} (hS : Link H S) {clean : HM Unit} (hl : Frees clean l) {k' : HToken → HP ρ β'} {k : Token → PM σ β}
    (h : ∀ ht t x, TokenAt t ht x → HRel A base (St J (some (ht, t)) l) (k' ht) (k t) Q) :
    HRel A base (St J c l) (orFree (hPeek H) clean >>= k') (peek (cutSrc S) >>= k) Q := by
  refine hrel_bind (hrel_orFree (hrel_peek hS) hl) fun ht t => ?_
  rintro p s b fr hp ⟨b0, ⟨⟨x, hx⟩, b1, h1, h2, h3⟩, h4⟩ e hu hf
  exact h ht t x hx p s b fr hp ⟨b1, h1, h2, by
    rw [List.perm_iff_count] at h3 h4 ⊢
    intro z
    have := h3 z
    have := h4 z
    simp only [List.count_append, List.nil_append] at *
    omega⟩ e hu hf

theorem hrel_skip {ht : HToken} {t : Token} :
    HRel A base (St J (some (ht, t)) l) hSkip skipTok (fun _ _ (p : HPS ρ) (s : PS σ) b => ∃ x, TokenAt t ht x ∧ St J none (x ++ l) p s b) := by
  intro p s b fr h hp e hu hf
  obtain ⟨b0, ho, hc, hb⟩ := hp
  obtain ⟨x1, x2, x3, x4, x5, k1, k2, k3, k4, k5, k6, k8, k9, k10⟩ := ho
  obtain ⟨h1, h2⟩ := hc.1 _ rfl
  simp only at h1 h2
  rw [h1, h2] at k4
  obtain ⟨ht', k11, k12⟩ := k4
  cases k11
  unfold hw hSkip skipTok
  simp only [h1, h2]
  refine ⟨(), _, b, rfl, ⟨x4, k12, x1 ++ (x2 ++ (x3 ++ x5)), ⟨x1, x2, x3, [], x5, k1, k2, k3, ⟨rfl, rfl⟩, k5, k6, ?_, k9, List.Perm.refl _⟩, ⟨?_, hc.2⟩, ?_⟩, e⟩
  · have := tok_plain (d := .streamEnd) k12 rfl
    rw [Bool.eq_iff_iff]
    simpa using this
  · rintro x hx; cases hx
  · rw [List.perm_iff_count] at hb k10 ⊢
    intro z
    have := hb z
    have := k10 z
    simp only [List.count_append] at *
    omega

theorem hrel_skipB {ht : HToken} {t : Token} {k' : Unit → HP ρ β'} {k : Unit → PM σ β}
    (h : ∀ x, TokenAt t ht x → HRel A base (St J none (x ++ l)) (k' ()) (k ()) Q) :
    HRel A base (St J (some (ht, t)) l) (hSkip >>= k') (skipTok >>= k) Q := by
  refine hrel_bind hrel_skip fun _ _ => ?_
  rintro p s b fr hp ⟨x, hx, hst⟩ e hu hf
  exact h x hx p s b fr hp hst e hu hf

/-- Skipping a token without strings. -/
theorem hrel_skipP {ht : HToken} {t : Token} {k' : Unit → HP ρ β'} {k : Unit → PM σ β} (hd : t.data.isPlain = true)
    (h : HRel A base (St J none l) (k' ()) (k ()) Q) : HRel A base (St J (some (ht, t)) l) (hSkip >>= k') (skipTok >>= k) Q := by
  refine hrel_skipB fun x hx => ?_
  obtain ⟨rfl, _⟩ := tok_nil hx hd
  exact h

theorem hrel_setB {st : PState} {k' : Unit → HP ρ β'} {k : Unit → PM σ β} (h : HRel A base (St J c l) (k' ()) (k ()) Q) :
    HRel A base (St J c l) (hSetState st >>= k') (setState st >>= k) Q := by
  refine hrel_bind (R := fun _ _ => St J c l) ?_ (fun _ _ => h)
  intro p s b fr h hp e hu hf
  obtain ⟨b0, ho, hc, hb⟩ := hp
  obtain ⟨x1, x2, x3, x4, x5, k1, k2, k3, k4, k5, k6, k8, k9, k10⟩ := ho
  exact ⟨(), _, b, rfl, ⟨b0, ⟨x1, x2, x3, x4, x5, k1, k2, k3, k4, k5, k6, k8, rfl, k10⟩, hc, hb⟩, e⟩

omit [Strict] in
theorem hw_stk_push [Cell α] [LawfulCell α] {vs : List α} {s : HStk} {x bs bs' : Blocks} {v : α} {h : Heap} {Q : Bool × HStk → Heap → Prop}
    (hs : StkAt vs s x) (e : Ext A base bs h) (hp : bs.Perm (x ++ bs')) (h0 : ∀ h', Ext A base bs h' → (A → stackLimit α s.top) → Q (false, s) h')
    (h1 : ∀ h' s' x', StkAt (v :: vs) s' x' → Ext A base (x' ++ bs') h' → Q (true, s') h') : hw (hPush v s) Q h := by
  obtain ⟨a, n, rfl, hv, rfl⟩ := hs
  have := hw_push (a := a) (vs := vs.reverse) (n := n) (v := v) (Q := Q) (bs' := bs') e hp (by simpa using h0) (fun h' a' n' e' => ?_) (by simpa using hv)
  · simpa using this
  · rw [List.length_reverse]
    refine h1 h' _ [(a', stkObj (vs.reverse ++ [v]) n')] ⟨a', n', rfl, .inl (by simp), ?_⟩ e'
    rw [List.reverse_cons]

omit [Strict] in
theorem hw_stk_pop [Cell α] [LawfulCell α] {vs : List α} {s : HStk} {x bs bs' : Blocks} {v : α} {h : Heap} {Q : α × HStk → Heap → Prop}
    (hs : StkAt (v :: vs) s x) (e : Ext A base bs h) (hp : bs.Perm (x ++ bs'))
    (h1 : ∀ h' s' x', StkAt vs s' x' → Ext A base (x' ++ bs') h' → Q (v, s') h') : hw (hPop s) Q h := by
  obtain ⟨a, n, rfl, hv, rfl⟩ := hs
  rw [List.reverse_cons] at hp
  have := hw_pop (a := a) (vs := vs.reverse) (n := n) (v := v) (Q := Q) (bs' := bs') e hp (fun h' e' => ?_)
  · simpa using this
  · rw [List.length_reverse]
    exact h1 h' _ _ ⟨a, n + 1, rfl, .inr (by simp), rfl⟩ e'

theorem hrel_push {st : PState} : HRel A base (St J c []) (hPushState st) (pushState st) (fun _ _ (p : HPS ρ) (s : PS σ) b => St J c [] p s b) := by
  intro p s b fr h hp e hu hf
  obtain ⟨b0, ho, hc, hb⟩ := hp
  have hb : b.Perm b0 := hb
  obtain ⟨x1, x2, x3, x4, x5, k1, k2, k3, k4, k5, k6, k8, k9, k10⟩ := ho
  unfold hPushState
  rw [hw_bind]
  have hb2 := hb.trans k10
  refine hw_stk_push (bs' := (x2 ++ (x3 ++ (x4 ++ x5))) ++ fr) k1 e (by blocks_by hb2) (fun h' e' hA => ?_) (fun h' s' x' j1 e' => ?_)
  · exact ⟨⟨b0, Own.left (s := s) ⟨x1, x2, x3, x4, x5, k1, k2, k3, k4, k5, k6, k8, k9, k10⟩, e'.perm (by blocks_by hb)⟩, .inr ⟨rfl, fun a => .inl (hA a)⟩⟩
  · exact ⟨(), _, x' ++ (x2 ++ (x3 ++ (x4 ++ x5))), rfl, ⟨_, ⟨x', x2, x3, x4, x5, j1, k2, k3, k4, k5, k6, k8, k9, List.Perm.refl _⟩, hc,
      List.Perm.refl _⟩, e'.perm (by blocks)⟩

theorem hrel_pushB {st : PState} {k' : Unit → HP ρ β'} {k : Unit → PM σ β} (h : HRel A base (St J c []) (k' ()) (k ()) Q) :
    HRel A base (St J c []) (hPushState st >>= k') (pushState st >>= k) Q :=
  hrel_bind hrel_push fun _ _ => h

theorem hrel_pushF {st : PState} {clean : HM Unit} (hl : Frees clean l) {k' : Unit → HP ρ β'} {k : Unit → PM σ β}
    (h : HRel A base (St J c l) (k' ()) (k ()) Q) : HRel A base (St J c l) (orFree (hPushState st) clean >>= k') (pushState st >>= k) Q := by
  refine hrel_bind (hrel_orFree hrel_push hl) fun _ _ => ?_
  rintro p s b fr hp ⟨b0, ⟨b1, h1, h2, h3⟩, h4⟩ e hu hf
  exact h p s b fr hp ⟨b1, h1, h2, by
    rw [List.perm_iff_count] at h3 h4 ⊢
    intro z
    have := h3 z
    have := h4 z
    simp only [List.count_append, List.nil_append] at *
    omega⟩ e hu hf

theorem hrel_popB {k' : Unit → HP ρ β'} {k : Unit → PM σ β} (h : HRel A base (St J c l) (k' ()) (k ()) Q) :
    HRel A base (St J c l) (hPopState >>= k') (popState >>= k) Q := by
  refine hrel_bind (R := fun _ _ => St J c l) ?_ (fun _ _ => h)
  intro p s b fr h hp e hu hf
  obtain ⟨b0, ho, hc, hb⟩ := hp
  obtain ⟨x1, x2, x3, x4, x5, k1, k2, k3, k4, k5, k6, k8, k9, k10⟩ := ho
  unfold popState at hu ⊢
  cases hs : s.states with
  | nil => rw [hs] at hu; exact absurd rfl hu
  | cons st rest =>
    rw [hs] at k1
    unfold hPopState
    rw [hw_bind]
    have hb2 := hb.trans (k10.append_left l)
    refine hw_stk_pop (bs' := l ++ ((x2 ++ (x3 ++ (x4 ++ x5))) ++ fr)) k1 e (by blocks_by hb2) (fun h' s' x' j1 e' => ?_)
    exact ⟨(), _, l ++ (x' ++ (x2 ++ (x3 ++ (x4 ++ x5)))), rfl, ⟨_, ⟨x', x2, x3, x4, x5, j1, k2, k3, k4, k5, k6, k8, rfl, List.Perm.refl _⟩, hc,
      List.Perm.refl _⟩, e'.perm (by blocks)⟩

theorem hrel_pushMarkB {m : Mark} {k' : Unit → HP ρ β'} {k : Unit → PM σ β} (h : HRel A base (St J c []) (k' ()) (k ()) Q) :
    HRel A base (St J c []) (hPushMark m >>= k') (pushMark m >>= k) Q := by
  refine hrel_bind (R := fun _ _ => St J c []) ?_ (fun _ _ => h)
  intro p s b fr h hp e hu hf
  obtain ⟨b0, ho, hc, hb⟩ := hp
  have hb : b.Perm b0 := hb
  obtain ⟨x1, x2, x3, x4, x5, k1, k2, k3, k4, k5, k6, k8, k9, k10⟩ := ho
  unfold hPushMark
  rw [hw_bind]
  have hb2 := hb.trans k10
  refine hw_stk_push (bs' := (x1 ++ (x3 ++ (x4 ++ x5))) ++ fr) k2 e (by blocks_by hb2) (fun h' e' hA => ?_) (fun h' s' x' j1 e' => ?_)
  · exact ⟨⟨b0, Own.left (s := s) ⟨x1, x2, x3, x4, x5, k1, k2, k3, k4, k5, k6, k8, k9, k10⟩, e'.perm (by blocks_by hb)⟩, .inr ⟨rfl, fun a => .inr (.inl (hA a))⟩⟩
  · exact ⟨(), _, x1 ++ (x' ++ (x3 ++ (x4 ++ x5))), rfl, ⟨_, ⟨x1, x', x3, x4, x5, k1, j1, k3, k4, k5, k6, k8, k9, List.Perm.refl _⟩, hc,
      List.Perm.refl _⟩, e'.perm (by blocks)⟩

theorem hrel_popMarkB {k' : Mark → HP ρ β'} {k : Mark → PM σ β} (h : ∀ m, HRel A base (St J c l) (k' m) (k m) Q) :
    HRel A base (St J c l) (hPopMark >>= k') (popMark >>= k) Q := by
  refine hrel_bind (R := fun m' m p s b => m' = m ∧ St J c l p s b) ?_ ?_
  · intro p s b fr h hp e hu hf
    obtain ⟨b0, ho, hc, hb⟩ := hp
    obtain ⟨x1, x2, x3, x4, x5, k1, k2, k3, k4, k5, k6, k8, k9, k10⟩ := ho
    unfold popMark at hu ⊢
    cases hs : s.marks with
    | nil => rw [hs] at hu; exact absurd rfl hu
    | cons st rest =>
      rw [hs] at k2
      unfold hPopMark
      rw [hw_bind]
      have hb2 := hb.trans (k10.append_left l)
      refine hw_stk_pop (bs' := l ++ ((x1 ++ (x3 ++ (x4 ++ x5))) ++ fr)) k2 e (by blocks_by hb2) (fun h' s' x' j1 e' => ?_)
      exact ⟨st, _, l ++ (x1 ++ (x' ++ (x3 ++ (x4 ++ x5)))), rfl, ⟨rfl, _, ⟨x1, x', x3, x4, x5, k1, j1, k3, k4, k5, k6, k8, k9, List.Perm.refl _⟩, hc,
        List.Perm.refl _⟩, e'.perm (by blocks)⟩
  · intro m' m
    rintro p s b fr hp ⟨rfl, hst⟩ e hu hf
    exact h m' p s b fr hp hst e hu hf

/-- The current token is forgotten. -/
theorem hrel_forget {m : HP ρ β'} {v : PM σ β} (h : HRel A base (St J none l) m v Q) : HRel A base (St J c l) m v Q :=
  hrel_pre h fun _ _ _ ⟨b0, h1, h2, h3⟩ => ⟨b0, h1, ⟨(fun x hx => by cases hx), h2.2⟩, h3⟩

/-- The blocks of local variables in another order. -/
theorem hrel_locals {l' : Blocks} {m : HP ρ β'} {v : PM σ β} (h : HRel A base (St J c l') m v Q) (hl : l.Perm l') : HRel A base (St J c l) m v Q :=
  hrel_pre h fun _ _ _ ⟨b0, h1, h2, h3⟩ => ⟨b0, h1, h2, h3.trans (hl.append_right b0)⟩

end

end LibYaml
