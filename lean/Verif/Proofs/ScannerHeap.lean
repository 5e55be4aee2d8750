import Verif.Model.ScannerHeap
import Verif.Proofs.ParserHeap

/-!
# The scanner on the heap: helper lemmas

`XRel rep … i own keep m x Q`: started from a heap state and a value state related by `rep i`, the program `m` on the heap ends without undefined
behaviour if `x` does. If it succeeds so does `x`, and the results are related by `Q`. If it fails, then `x` fails with the same error, or memory was
short; what is left then is the state and `keep`.
-/

namespace LibYaml

open Spec

set_option linter.unusedSectionVars false

section
variable {σ θ ι α α' β β' : Type} (rep : ι → σ → θ → RS → Blocks → Prop) (o : Oracle) (A : Prop) (base : Nat → Option Obj) (big : σ → Prop)

/-- A program on values neither reaches undefined behaviour nor runs out of fuel. -/
def Sane (r : Except Fail α) : Prop := ∀ e, r = .error e → e ≠ .ub ∧ e ≠ .fuel

/-- What is known after a program on the heap. -/
def XPost (run : Except Fail ((α × θ) × RS)) (keep : Blocks) (Q : β → α → ι → Blocks → Prop) (r : Except (Option Fail) β × σ) (h : Heap) : Prop :=
  match r.1 with
  | .error e => (∃ j t inp b, rep j r.2 t inp b ∧ Ext A base (b ++ keep) h) ∧
      ((∃ f, run = .error f ∧ e = some f) ∨ ((e = none ∨ e = some .memory) ∧ (A → big r.2)))
  | .ok v => ∃ a t inp j c b, run = .ok ((a, t), inp) ∧ rep j r.2 t inp b ∧ Ext A base (b ++ c) h ∧ Q v a j c

def XRel (i : ι) (own keep : Blocks) (m : XM σ β) (x : StateT θ Prog α) (Q : β → α → ι → Blocks → Prop) : Prop :=
  ∀ s t inp b h, rep i s t inp b → Ext A base (b ++ own) h → Sane ((x t).runR o inp) →
    hw (m s) (XPost rep A base big ((x t).runR o inp) keep Q) h

variable {rep o A base big}
variable {i : ι} {own keep : Blocks}

theorem xw_bind {m : XM σ α} {k : α → XM σ β} {s : σ} {Q : Except (Option Fail) β × σ → Heap → Prop} {h : Heap} :
    hw ((m >>= k) s) Q h ↔ hw (m s) (fun r h' => match r.1 with | .error e => Q (.error e, r.2) h' | .ok a => hw (k a r.2) Q h') h := by
  show hw (XM.bind m k s) Q h ↔ _
  unfold hw XM.bind
  rcases m s h with e | ⟨⟨e | a, x⟩, h'⟩ <;> exact Iff.rfl

theorem runR_bind {x : Prog α} {k : α → Prog β} {inp : RS} :
    (x.bind k).runR o inp = match x.runR o inp with | .error e => .error e | .ok (a, inp) => (k a).runR o inp := by
  induction x generalizing inp with
  | ret a => rfl
  | fail e => rfl
  | cache n x ih => simp only [Prog.bind, Prog.runR]; cases cacheR o inp n with
    | error e => rfl
    | ok s => exact ih
  | look j x ih => simp only [Prog.bind, Prog.runR]; cases lookR inp j with
    | error e => rfl
    | ok s => exact ih s
  | skip x ih => simp only [Prog.bind, Prog.runR]; cases skipR inp with
    | error e => rfl
    | ok s => exact ih

theorem runS_bind {x : StateT θ Prog α} {k : α → StateT θ Prog β} {t : θ} {inp : RS} :
    ((x >>= k) t).runR o inp = match (x t).runR o inp with | .error e => .error e | .ok ((a, t), inp) => (k a t).runR o inp := by
  show ((x t).bind fun p => k p.1 p.2).runR o inp = _
  rw [runR_bind]
  rcases (x t).runR o inp with e | ⟨⟨a, t⟩, i⟩ <;> rfl

theorem xr_bind {m : XM σ β} {k : β → XM σ β'} {x : StateT θ Prog α} {y : α → StateT θ Prog α'} {Q1 : β → α → ι → Blocks → Prop}
    {Q : β' → α' → ι → Blocks → Prop} (h1 : XRel rep o A base big i own keep m x Q1)
    (h2 : ∀ v a j c, Q1 v a j c → XRel rep o A base big j c keep (k v) (y a) Q) :
    XRel rep o A base big i own keep (m >>= k) (x >>= y) Q := by
  intro s t inp b h hr e sane
  rw [xw_bind]
  rw [runS_bind] at sane ⊢
  have sx : Sane ((x t).runR o inp) := by
    intro er hx
    rw [hx] at sane
    exact sane er rfl
  refine hw_mono (h1 s t inp b h hr e sx) ?_
  rintro ⟨er | v, s'⟩ h' post
  · obtain ⟨hk, hf⟩ := post
    refine ⟨hk, ?_⟩
    rcases hf with ⟨f, hf, hv⟩ | hm
    · rw [hf]
      exact .inl ⟨f, rfl, hv⟩
    · exact .inr hm
  · obtain ⟨a, t', inp', j, c, b', hrun, hr', e', hq⟩ := post
    rw [hrun] at sane ⊢
    exact h2 v a j c hq s' t' inp' b' h' hr' e' sane

/-- A step of the program on the heap alone. -/
theorem xr_do {m : XM σ β} {k : β → XM σ β'} {x : StateT θ Prog α'} {Q1 : β → Unit → ι → Blocks → Prop}
    {Q : β' → α' → ι → Blocks → Prop} (h1 : XRel rep o A base big i own keep m (pure ()) Q1)
    (h2 : ∀ v j c, Q1 v () j c → XRel rep o A base big j c keep (k v) x Q) :
    XRel rep o A base big i own keep (m >>= k) x Q :=
  xr_bind (x := pure ()) (y := fun _ => x) h1 (fun v _ j c hq => h2 v j c hq)

theorem xr_pure {v : β} {a : α} {Q : β → α → ι → Blocks → Prop} (h : Q v a i own) : XRel rep o A base big i own keep (pure v) (pure a) Q := by
  intro s t inp b hh hr e _
  exact ⟨a, t, inp, i, own, b, rfl, hr, e, h⟩

theorem xr_post {m : XM σ β} {x : StateT θ Prog α} {Q Q' : β → α → ι → Blocks → Prop} (h1 : XRel rep o A base big i own keep m x Q')
    (h2 : ∀ v a j c, Q' v a j c → Q v a j c) : XRel rep o A base big i own keep m x Q := by
  intro s t inp b h hr e sane
  refine hw_mono (h1 s t inp b h hr e sane) ?_
  rintro ⟨er | v, s'⟩ h' post
  · exact post
  · obtain ⟨a, t', inp', j, c, b', hrun, hr', e', hq⟩ := post
    exact ⟨a, t', inp', j, c, b', hrun, hr', e', h2 _ _ _ _ hq⟩

theorem xr_pre {j : ι} {m : XM σ β} {x : StateT θ Prog α} {Q : β → α → ι → Blocks → Prop} (h1 : XRel rep o A base big j own keep m x Q)
    (h2 : ∀ s t inp b, rep i s t inp b → rep j s t inp b) : XRel rep o A base big i own keep m x Q :=
  fun s t inp b h hr e sane => h1 s t inp b h (h2 _ _ _ _ hr) e sane

theorem xr_ite {c : Prop} [Decidable c] {m n : XM σ β} {x y : StateT θ Prog α} {Q : β → α → ι → Blocks → Prop}
    (h1 : c → XRel rep o A base big i own keep m x Q) (h2 : ¬ c → XRel rep o A base big i own keep n y Q) :
    XRel rep o A base big i own keep (if c then m else n) (if c then x else y) Q := by
  by_cases hc : c
  · rw [if_pos hc, if_pos hc]; exact h1 hc
  · rw [if_neg hc, if_neg hc]; exact h2 hc

theorem xr_fuel {m : XM σ β} {Q : β → α → ι → Blocks → Prop} : XRel rep o A base big i own keep m (fun _ => .fail .fuel) Q :=
  fun _ _ _ _ _ _ _ sane => absurd rfl (sane .fuel rfl).2

/-- Reading the state. -/
theorem xr_get {f : σ → β} {k : β → XM σ β'} {x : StateT θ Prog α} {Q : β' → α → ι → Blocks → Prop} {R : β → Prop}
    (hR : ∀ s t inp b, rep i s t inp b → R (f s)) (h : ∀ v, R v → XRel rep o A base big i own keep (k v) x Q) :
    XRel rep o A base big i own keep (xget f >>= k) x Q := by
  intro s t inp b hh hr e sane
  rw [xw_bind]
  exact h (f s) (hR _ _ _ _ hr) s t inp b hh hr e sane

/-- Programs of the heap alone. -/
theorem xr_lift {m : HM β} {k : β → XM σ β'} {x : StateT θ Prog α} {Q : β' → α → ι → Blocks → Prop} {R : β → Blocks → Prop}
    (hm : ∀ b h, Ext A base (b ++ own) h → hw m (fun v h' => ∃ c, Ext A base (b ++ c) h' ∧ R v c) h)
    (h : ∀ v c, R v c → XRel rep o A base big i c keep (k v) x Q) :
    XRel rep o A base big i own keep (xlift m >>= k) x Q := by
  intro s t inp b hh hr e sane
  rw [xw_bind]
  have := hm b hh e
  unfold hw xlift at *
  revert this
  rcases m hh with er | ⟨v, h'⟩ <;> intro this
  · exact this
  · obtain ⟨c, e', hc⟩ := this
    exact h v c hc s t inp b h' hr e' sane

/-- Blocks in another order. -/
theorem xr_perm {own' : Blocks} {m : XM σ β} {x : StateT θ Prog α} {Q : β → α → ι → Blocks → Prop} (hp : own.Perm own')
    (h : XRel rep o A base big i own' keep m x Q) : XRel rep o A base big i own keep m x Q :=
  fun s t inp b hh hr e sane => h s t inp b hh hr (e.perm (List.Perm.append_left b hp)) sane

/-- The label `error` frees the blocks `l`. -/
theorem xr_orFree {l keep' : Blocks} {m : XM σ β} {x : StateT θ Prog α} {clean : HM Unit} {Q : β → α → ι → Blocks → Prop}
    (h : XRel rep o A base big i own keep' m x Q) (hp : keep'.Perm (l ++ keep))
    (hc : ∀ bs h, Ext A base (l ++ bs) h → hw clean (fun _ h' => Ext A base bs h') h) :
    XRel rep o A base big i own keep (xorFree m clean) x Q := by
  intro s t inp b hh hr e sane
  have := h s t inp b hh hr e sane
  unfold hw xorFree at *
  revert this
  rcases m s hh with er | ⟨⟨er | v, s'⟩, h'⟩ <;> intro this
  · exact this
  · obtain ⟨⟨j, t', inp', b', hr', e'⟩, hf⟩ := this
    have := hc (b' ++ keep) h' (e'.perm (by blocks_by hp))
    obtain ⟨u, h2, hcl, e2⟩ := hw_out this
    simp only [hcl]
    exact ⟨⟨j, t', inp', b', hr', e2⟩, hf⟩
  · exact this

theorem clean_str {p : Nat} {ob : Obj} (bs : Blocks) (h : Heap) (e : Ext A base ([(p, ob)] ++ bs) h) : hw (free (some p)) (fun _ h' => Ext A base bs h') h :=
  hw_free e (List.Perm.refl _) (fun _ e => e)

theorem clean_two {p q : Nat} {o1 o2 : Obj} (bs : Blocks) (h : Heap) (e : Ext A base ([(p, o1), (q, o2)] ++ bs) h) :
    hw (do free (some p); free (some q)) (fun _ h' => Ext A base bs h') h := by
  rw [hw_bind]
  exact hw_free e (List.Perm.refl _) (fun _ e => hw_free e (List.Perm.refl _) (fun _ e => e))

end

/-! ### Strings -/

/-- What a string variable holds: nothing, these bytes with room for `slack` more and a NUL, or rests of something joined to another string. -/
inductive RegV
  | null
  | bytes (t : List UInt8) (slack : Nat)
  | stale

def StrgAt : RegV → HStr → Blocks → Prop
  | .null, s, b => s = {} ∧ b = []
  | .bytes t n, s, b => ∃ a k, s = ⟨some a, t.length⟩ ∧ b = [(a, .bytes (t ++ List.replicate k 0))] ∧ n < k ∧ 16 ≤ t.length + k
  | .stale, s, b => ∃ a mem, s = ⟨some a, 0⟩ ∧ b = [(a, .bytes mem)] ∧ 16 ≤ mem.length

structure RV where
  str : RegV
  lead : RegV
  trail : RegV
  white : RegV

def RV.get (V : RV) : Reg → RegV
  | .str => V.str
  | .lead => V.lead
  | .trail => V.trail
  | .white => V.white

def RV.set (V : RV) : Reg → RegV → RV
  | .str, v => { V with str := v }
  | .lead, v => { V with lead := v }
  | .trail, v => { V with trail := v }
  | .white, v => { V with white := v }

theorem RV.get_set (V : RV) (r q : Reg) (v : RegV) : (V.set r v).get q = if q = r then v else V.get q := by
  cases r <;> cases q <;> rfl

def RAt (V : RV) (regs : Reg → HStr) (b : Blocks) : Prop :=
  ∃ b1 b2 b3 b4, StrgAt V.str (regs .str) b1 ∧ StrgAt V.lead (regs .lead) b2 ∧ StrgAt V.trail (regs .trail) b3 ∧ StrgAt V.white (regs .white) b4 ∧
    b = b1 ++ b2 ++ b3 ++ b4

/-- One of the strings. -/
theorem RAt.focus {V : RV} {regs : Reg → HStr} {b : Blocks} (h : RAt V regs b) (r : Reg) :
    ∃ x y, b.Perm (x ++ y) ∧ StrgAt (V.get r) (regs r) x ∧
      ∀ v s x', StrgAt v s x' → ∃ b', RAt (V.set r v) (fun q => if q = r then s else regs q) b' ∧ b'.Perm (x' ++ y) := by
  obtain ⟨b1, b2, b3, b4, h1, h2, h3, h4, rfl⟩ := h
  cases r
  · exact ⟨b1, b2 ++ b3 ++ b4, by blocks, h1, fun v s x' hs => ⟨x' ++ b2 ++ b3 ++ b4, ⟨x', b2, b3, b4, hs, h2, h3, h4, rfl⟩, by blocks⟩⟩
  · exact ⟨b2, b1 ++ b3 ++ b4, by blocks, h2, fun v s x' hs => ⟨b1 ++ x' ++ b3 ++ b4, ⟨b1, x', b3, b4, h1, hs, h3, h4, rfl⟩, by blocks⟩⟩
  · exact ⟨b3, b1 ++ b2 ++ b4, by blocks, h3, fun v s x' hs => ⟨b1 ++ b2 ++ x' ++ b4, ⟨b1, b2, x', b4, h1, h2, hs, h4, rfl⟩, by blocks⟩⟩
  · exact ⟨b4, b1 ++ b2 ++ b3, by blocks, h4, fun v s x' hs => ⟨b1 ++ b2 ++ b3 ++ x', ⟨b1, b2, b3, x', h1, h2, h3, hs, rfl⟩, by blocks⟩⟩

/-- The state of a scanning function, of which only the strings in `D` are in use. -/
def LRep (D : List Reg) (V : RV) (s : LX) (m : Mark) (inp : RS) (b : Blocks) : Prop :=
  s.mark = m ∧ s.inp = inp ∧ RAt V s.regs b ∧ ∀ r, r ∉ D → V.get r = .null

section
variable {α α' β β' : Type} {o : Oracle} {A : Prop} {base : Nat → Option Obj} {D : List Reg} {V : RV} {c keep : Blocks}

/-- The relation for scanning functions: with enough memory they do not run out of it. -/
abbrev LRel (o : Oracle) (A : Prop) (base : Nat → Option Obj) (D : List Reg) := XRel (LRep D) o A base (fun _ => False) (β := β) (α := α)

/-- A part of the scanner that uses no memory of its own. -/
theorem lr_hin {x : Lex α} : LRel o A base D V c c (hin o x) x (fun v a W d => v = a ∧ V = W ∧ c = d) := by
  rintro s t inp b h ⟨rfl, rfl, hr, hD⟩ e sane
  unfold hw hin
  cases hx : (x s.mark).runR o s.inp with
  | ok r =>
    obtain ⟨⟨a, m⟩, i⟩ := r
    exact ⟨a, m, i, V, c, b, rfl, ⟨rfl, rfl, hr, hD⟩, e, rfl, rfl, rfl⟩
  | error er =>
    have := sane er hx
    have hst : (∃ j t inp b, LRep D j s t inp b ∧ Ext A base (b ++ c) h) := ⟨V, _, _, b, ⟨rfl, rfl, hr, hD⟩, e⟩
    cases er with
    | ub => exact absurd rfl this.1
    | fuel => exact absurd rfl this.2
    | _ => exact ⟨hst, .inl ⟨_, rfl, rfl⟩⟩

theorem lr_mark {f : Mark → β} : LRel o A base D V c keep (xget fun x => f x.mark) (get : Lex Mark) (fun v a W d => v = f a ∧ V = W ∧ c = d) := by
  rintro s t inp b h ⟨rfl, rfl, hr, hD⟩ e sane
  exact ⟨s.mark, s.mark, s.inp, V, c, b, rfl, ⟨rfl, rfl, hr, hD⟩, e, rfl, rfl, rfl⟩

/-- An operation on one string. -/
theorem lr_str {r : Reg} {v v' : RegV} {m : HL β} {R : β → Prop} (hr : r ∈ D) (hv : V.get r = v)
    (hm : ∀ s x y h, StrgAt v (s.regs r) x → Ext A base (x ++ y) h →
      hw (m s) (fun p h' => match p.1 with
        | .error e => e = some .memory ∧ ¬ A ∧ ∃ w st x', p.2 = s.set r st ∧ StrgAt w st x' ∧ Ext A base (x' ++ y) h'
        | .ok a => R a ∧ ∃ st x', p.2 = s.set r st ∧ StrgAt v' st x' ∧ Ext A base (x' ++ y) h') h) :
    LRel o A base D V c c m (pure () : Lex Unit) (fun a _ W d => R a ∧ W = V.set r v' ∧ c = d) := by
  rintro s t inp b h ⟨rfl, rfl, hra, hD⟩ e sane
  obtain ⟨x, y, hp, hs, hset⟩ := hra.focus r
  rw [hv] at hs
  have hD' : ∀ w q, q ∉ D → (V.set r w).get q = .null := by
    intro w q hq
    rw [RV.get_set, if_neg (by rintro rfl; exact hq hr)]
    exact hD q hq
  refine hw_mono (hm s x (y ++ c) h hs (e.perm (by blocks_by hp))) ?_
  rintro ⟨er | a, s'⟩ h' post
  · obtain ⟨rfl, ha, w, st, x', rfl, hst, e'⟩ := post
    obtain ⟨b', hb, hp'⟩ := hset w st x' hst
    exact ⟨⟨V.set r w, s.mark, s.inp, b', ⟨rfl, rfl, hb, hD' w⟩, e'.perm (by blocks_by hp')⟩, .inr ⟨.inr rfl, fun a => absurd a ha⟩⟩
  · obtain ⟨hR, st, x', rfl, hst, e'⟩ := post
    obtain ⟨b', hb, hp'⟩ := hset v' st x' hst
    exact ⟨(), s.mark, s.inp, V.set r v', c, b', rfl, ⟨rfl, rfl, hb, hD' v'⟩, e'.perm (by blocks_by hp'), hR, rfl, rfl⟩

theorem RV.set_get (V : RV) (r : Reg) : V.set r (V.get r) = V := by cases r <;> rfl

theorem LX.set_self (x : LX) (r : Reg) : x.set r (x.regs r) = x := by
  unfold LX.set
  congr
  funext q
  split
  · rename_i h; rw [h]
  · rfl

theorem hw_bufOf {a : Nat} {mem : List UInt8} {bs : Blocks} {h : Heap} {Q : List UInt8 → Heap → Prop} (e : Ext A base bs h) (hm : (a, .bytes mem) ∈ bs)
    (hQ : Q mem h) : hw (bufOf (some a)) Q h := by
  unfold bufOf
  rw [hw_bind]
  exact hw_load e hm (by rw [hw_pure]; exact hQ)

theorem lr_sInit {r : Reg} (hr : r ∈ D) (hv : V.get r = .null) :
    LRel o A base D V c c (sInit r) (pure () : Lex Unit) (fun _ _ W d => W = V.set r (.bytes [] 0) ∧ c = d) := by
  refine xr_post (lr_str (v := .null) (v' := .bytes [] 0) (R := fun _ => True) hr hv ?_) (fun _ _ _ _ h => h.2)
  rintro s x y h ⟨hs, rfl⟩ e
  unfold sInit
  rw [hw_bind]
  refine hw_malloc e (fun h' e ha => ?_) (fun h' p e => ?_)
  · exact ⟨rfl, ha, .null, s.regs r, [], (LX.set_self s r).symm, ⟨hs, rfl⟩, e⟩
  · exact ⟨trivial, _, _, rfl, ⟨p, 16, rfl, rfl, by decide, by decide⟩, e⟩

theorem lr_sDel {r : Reg} {v : RegV} (hr : r ∈ D) (hv : V.get r = v) :
    LRel o A base D V c c (sDel r) (pure () : Lex Unit) (fun _ _ W d => W = V.set r .null ∧ c = d) := by
  refine xr_post (lr_str (v := v) (v' := .null) (R := fun _ => True) hr hv ?_) (fun _ _ _ _ h => h.2)
  intro s x y h hs e
  unfold sDel
  rw [hw_bind]
  have hfin : ∀ h', Ext A base y h' → hw (pure (Except.ok (), s.set r {}) : HM (Except (Option Fail) Unit × LX)) (fun p h' => match p.1 with
        | .error e => e = some .memory ∧ ¬ A ∧ ∃ w st x', p.2 = s.set r st ∧ StrgAt w st x' ∧ Ext A base (x' ++ y) h'
        | .ok a => True ∧ ∃ st x', p.2 = s.set r st ∧ StrgAt .null st x' ∧ Ext A base (x' ++ y) h') h' := fun h' e =>
    ⟨trivial, {}, [], rfl, ⟨rfl, rfl⟩, e⟩
  cases v with
  | null =>
    obtain ⟨hs, rfl⟩ := hs
    rw [hs]
    exact hw_free_null (hfin _ e)
  | bytes t n =>
    obtain ⟨a, k, hs, rfl, _, _⟩ := hs
    rw [hs]
    exact hw_free e (List.Perm.refl _) (fun h' e => hfin _ e)
  | stale =>
    obtain ⟨a, mem, hs, rfl, _⟩ := hs
    rw [hs]
    exact hw_free e (List.Perm.refl _) (fun h' e => hfin _ e)

/-- `yaml_string_extend` -/
theorem hw_sExtend {r : Reg} {s : LX} {a k : Nat} {t : List UInt8} {y : Blocks} {h : Heap} {Q : Except (Option Fail) Unit × LX → Heap → Prop}
    (hs : s.regs r = ⟨some a, t.length⟩) (e : Ext A base ((a, .bytes (t ++ List.replicate k 0)) :: y) h)
    (h0 : ∀ h', Ext A base ((a, .bytes (t ++ List.replicate k 0)) :: y) h' → ¬ A → Q (.error (some .memory), s) h')
    (h1 : ∀ h' p, Ext A base ((p, .bytes (t ++ List.replicate (k + (t.length + k)) 0)) :: y) h' → Q (.ok (), s.set r ⟨some p, t.length⟩) h') :
    hw (sExtend r s) Q h := by
  unfold sExtend
  rw [hw_bind, hs]
  refine hw_bufOf e List.mem_cons_self ?_
  rw [hw_bind]
  have hmem : (t ++ List.replicate k (0 : UInt8)) ++ List.replicate (t ++ List.replicate k (0 : UInt8)).length 0 =
      t ++ List.replicate (k + (t.length + k)) 0 := by
    rw [List.append_assoc, List.length_append, List.length_replicate, List.replicate_append_replicate]
  rw [hmem]
  refine hw_malloc e (fun h' e ha => h0 h' e ha) (fun h' p e => ?_)
  show hw (do free (some a); pure _) Q h'
  rw [hw_bind]
  exact hw_free (o := .bytes (t ++ List.replicate k 0)) e (by blocks) (fun h' e => h1 h' p e)

theorem lr_sRoom {r : Reg} {t : List UInt8} {n : Nat} (hr : r ∈ D) (hv : V.get r = .bytes t n) :
    LRel o A base D V c c (sRoom r) (pure () : Lex Unit) (fun _ _ W d => W = V.set r (.bytes t 5) ∧ c = d) := by
  refine xr_post (lr_str (v := .bytes t n) (v' := .bytes t 5) (R := fun _ => True) hr hv ?_) (fun _ _ _ _ h => h.2)
  rintro s x y h ⟨a, k, hs, rfl, hk, hl⟩ e
  unfold sRoom
  rw [hw_bind, hs]
  refine hw_bufOf e (List.mem_cons_self ..) ?_
  rw [hw_ite]
  have hlen : (t ++ List.replicate k (0 : UInt8)).length = t.length + k := by simp
  split
  · rename_i hlt
    refine ⟨trivial, s.regs r, _, (LX.set_self s r).symm, ⟨a, k, hs, rfl, ?_, hl⟩, e⟩
    have : t.length + 5 < (t ++ List.replicate k (0 : UInt8)).length := hlt
    omega
  · refine hw_sExtend hs e (fun h' e ha => ?_) (fun h' p e => ?_)
    · exact ⟨rfl, ha, .bytes t n, s.regs r, _, (LX.set_self s r).symm, ⟨a, k, hs, rfl, hk, hl⟩, e⟩
    · exact ⟨trivial, _, _, rfl, ⟨p, _, rfl, rfl, by omega, by omega⟩, e⟩

theorem lr_sStore {r : Reg} {t bs : List UInt8} {n : Nat} (n' : Nat) (hr : r ∈ D) (hv : V.get r = .bytes t n) (hl : bs.length + n' ≤ n) :
    LRel o A base D V c c (sStore r bs) (pure () : Lex Unit) (fun _ _ W d => W = V.set r (.bytes (t ++ bs) n') ∧ c = d) := by
  refine xr_post (lr_str (v := .bytes t n) (v' := .bytes (t ++ bs) n') (R := fun _ => True) hr hv ?_) (fun _ _ _ _ h => h.2)
  rintro s x y h ⟨a, k, hs, rfl, hk, hl⟩ e
  unfold sStore
  rw [hw_bind, hs]
  refine hw_bufOf e (List.mem_cons_self ..) ?_
  have hc : memcpy (t ++ List.replicate k (0 : UInt8)) t.length bs = .ok ((t ++ bs) ++ List.replicate (k - bs.length) 0) := by
    unfold memcpy
    rw [if_pos (by simp; omega)]
    congr 1
    rw [List.take_left, List.append_assoc, List.append_assoc]
    congr 2
    rw [show t.length + bs.length = t.length + bs.length from rfl, List.drop_append, List.drop_eq_nil_of_le (by omega), List.nil_append,
      List.drop_replicate]
    congr 1
    omega
  simp only [hc]
  rw [hw_bind]
  refine hw_store e (List.Perm.refl _) (fun h' e => ?_)
  refine ⟨trivial, _, _, rfl, ⟨a, k - bs.length, by simp, rfl, by omega, by simp; omega⟩, e⟩

theorem lr_sClear {r : Reg} {v : RegV} (hr : r ∈ D) (hv : V.get r = v) (hn : v ≠ .null) :
    LRel o A base D V c c (sClear r) (pure () : Lex Unit) (fun _ _ W d => W = V.set r (.bytes [] 0) ∧ c = d) := by
  refine xr_post (lr_str (v := v) (v' := .bytes [] 0) (R := fun _ => True) hr hv ?_) (fun _ _ _ _ h => h.2)
  intro s x y h hs e
  have hx : ∃ a mem k, s.regs r = ⟨some a, k⟩ ∧ x = [(a, .bytes mem)] ∧ 16 ≤ mem.length := by
    cases v with
    | null => exact absurd rfl hn
    | bytes t n =>
      obtain ⟨a, k, hs, rfl, _, hl⟩ := hs
      exact ⟨a, _, _, hs, rfl, by simpa using hl⟩
    | stale =>
      obtain ⟨a, mem, hs, rfl, hl⟩ := hs
      exact ⟨a, _, _, hs, rfl, hl⟩
  clear hs
  obtain ⟨a, mem, k, hs, rfl, hl⟩ := hx
  unfold sClear
  rw [hw_bind, hs]
  refine hw_bufOf e (List.mem_cons_self ..) ?_
  rw [hw_bind]
  refine hw_store e (List.Perm.refl _) (fun h' e => ?_)
  exact ⟨trivial, _, _, rfl, ⟨a, mem.length, rfl, rfl, by omega, by simpa using hl⟩, e⟩

theorem lr_sGrow {r : Reg} {t : List UInt8} {n m f : Nat} (hr : r ∈ D) (hv : V.get r = .bytes t n) (hf : m < f + n) (hf0 : 0 < f) :
    LRel o A base D V c c (sGrow r m f) (pure () : Lex Unit) (fun _ _ W d => W = V.set r (.bytes t m) ∧ c = d) := by
  refine xr_post (lr_str (v := .bytes t n) (v' := .bytes t m) (R := fun _ => True) hr hv ?_) (fun _ _ _ _ h => h.2)
  clear hv
  induction f generalizing n with
  | zero => omega
  | succ f ih =>
    rintro s x y h ⟨a, k, hs, rfl, hk, hl⟩ e
    unfold sGrow
    rw [xw_bind]
    unfold sShort
    rw [hw_bind, hs]
    refine hw_bufOf e (List.mem_cons_self ..) ?_
    rw [hw_pure]
    show hw ((if decide ((t ++ List.replicate k (0 : UInt8)).length - t.length ≤ m) = true then _ else _ : HL Unit) s) _ h
    have hlen : (t ++ List.replicate k (0 : UInt8)).length - t.length = k := by simp
    rw [hlen]
    by_cases hkm : k ≤ m
    · rw [if_pos (by simpa using hkm), xw_bind]
      refine hw_sExtend hs e (fun h' e ha => ?_) (fun h' p e => ?_)
      · exact ⟨rfl, ha, .bytes t n, s.regs r, _, (LX.set_self s r).symm, ⟨a, k, hs, rfl, hk, hl⟩, e⟩
      · have hset : ∀ st, (s.set r ⟨some p, t.length⟩).set r st = s.set r st := by
          intro st
          unfold LX.set
          congr
          funext q
          by_cases hq : q = r <;> simp [hq]
        refine hw_mono (ih (n := k + (t.length + k) - 1) (by omega) (by omega) (s.set r ⟨some p, t.length⟩) _ y h'
          ⟨p, k + (t.length + k), by simp [LX.set], rfl, by omega, by omega⟩ e) ?_
        rintro ⟨er | u, s'⟩ h2 post
        · obtain ⟨h1, h2, w, st, x', h3, h4⟩ := post
          exact ⟨h1, h2, w, st, x', h3.trans (hset st), h4⟩
        · obtain ⟨h1, st, x', h3, h4⟩ := post
          exact ⟨h1, st, x', h3.trans (hset st), h4⟩
    · rw [if_neg (by simpa using hkm)]
      exact ⟨trivial, s.regs r, _, (LX.set_self s r).symm, ⟨a, k, hs, rfl, by omega, hl⟩, e⟩

theorem lr_sBytes {r : Reg} {t : List UInt8} {n : Nat} (hr : r ∈ D) (hv : V.get r = .bytes t n) :
    LRel o A base D V c c (sBytes r) (pure () : Lex Unit) (fun a _ W d => a = t ∧ V = W ∧ c = d) := by
  refine xr_post (lr_str (v := .bytes t n) (v' := .bytes t n) (R := fun a => a = t) hr hv ?_)
    (fun _ _ _ _ h => ⟨h.1, by rw [h.2.1, ← hv, RV.set_get], h.2.2⟩)
  rintro s x y h ⟨a, k, hs, rfl, hk, hl⟩ e
  unfold sBytes
  rw [hw_bind, hs]
  refine hw_bufOf e (List.mem_cons_self ..) ?_
  have hc : memread (t ++ List.replicate k (0 : UInt8)) 0 t.length = .ok t := by
    unfold memread
    rw [if_pos (by simp), List.drop_zero, List.take_left]
  simp only [hc]
  exact ⟨rfl, s.regs r, _, (LX.set_self s r).symm, ⟨a, k, hs, rfl, hk, hl⟩, e⟩

theorem lr_sByte {r : Reg} {t : List UInt8} {n j : Nat} (hj : j ≤ t.length) (hr : r ∈ D) (hv : V.get r = .bytes t n) :
    LRel o A base D V c c (sByte r j) (pure () : Lex Unit) (fun a _ W d => a = (t ++ [0])[j]'(by simp; omega) ∧ V = W ∧ c = d) := by
  refine xr_post (lr_str (v := .bytes t n) (v' := .bytes t n) (R := fun a => a = (t ++ [0])[j]'(by simp; omega)) hr hv ?_)
    (fun _ _ _ _ h => ⟨h.1, by rw [h.2.1, ← hv, RV.set_get], h.2.2⟩)
  rintro s x y h ⟨a, k, hs, rfl, hk, hl⟩ e
  unfold sByte
  rw [hw_bind, hs]
  refine hw_bufOf e (List.mem_cons_self ..) ?_
  have hc : (t ++ List.replicate k (0 : UInt8))[j]? = some ((t ++ [0])[j]'(by simp; omega)) := by
    obtain ⟨k, rfl⟩ : ∃ k', k = k' + 1 := ⟨k - 1, by omega⟩
    rw [List.replicate_succ, ← List.singleton_append, ← List.append_assoc, List.getElem?_append_left (by simp; omega), List.getElem?_eq_getElem]
  simp only [hc]
  exact ⟨rfl, s.regs r, _, (LX.set_self s r).symm, ⟨a, k, hs, rfl, hk, hl⟩, e⟩

theorem lr_sLen {r : Reg} {t : List UInt8} {n : Nat} (hr : r ∈ D) (hv : V.get r = .bytes t n) :
    LRel o A base D V c c (sLen r) (pure () : Lex Unit) (fun a _ W d => a = t.length ∧ V = W ∧ c = d) := by
  refine xr_post (lr_str (v := .bytes t n) (v' := .bytes t n) (R := fun a => a = t.length) hr hv ?_)
    (fun _ _ _ _ h => ⟨h.1, by rw [h.2.1, ← hv, RV.set_get], h.2.2⟩)
  rintro s x y h ⟨a, k, hs, rfl, hk, hl⟩ e
  exact ⟨by show (s.regs r).ptr = _; rw [hs], s.regs r, _, (LX.set_self s r).symm, ⟨a, k, hs, rfl, hk, hl⟩, e⟩

theorem lr_rewind {r : Reg} {t : List UInt8} {n : Nat} (hr : r ∈ D) (hv : V.get r = .bytes t n) :
    LRel o A base D V c c (xmod fun x => x.set r { x.regs r with ptr := 0 }) (pure () : Lex Unit) (fun _ _ W d => W = V.set r .stale ∧ c = d) := by
  refine xr_post (lr_str (v := .bytes t n) (v' := .stale) (R := fun _ => True) hr hv ?_) (fun _ _ _ _ h => h.2)
  rintro s x y h ⟨a, k, hs, rfl, hk, hl⟩ e
  exact ⟨trivial, _, _, rfl, ⟨a, _, by rw [hs], rfl, by simpa using hl⟩, e⟩

theorem lr_sTake {r : Reg} {t : List UInt8} {n : Nat} (hr : r ∈ D) (hv : V.get r = .bytes t n) :
    LRel o A base D V c keep (sTake r) (pure () : Lex Unit) (fun a _ W d => W = V.set r .null ∧ ∃ p k, a = ⟨some p, t.length⟩ ∧ n < k ∧
      d = (p, .bytes (t ++ List.replicate k 0)) :: c) := by
  rintro s m inp b h ⟨rfl, rfl, hra, hD⟩ e sane
  obtain ⟨x, y, hp, hs, hset⟩ := hra.focus r
  rw [hv] at hs
  obtain ⟨a, k, hs, rfl, hk, hl⟩ := hs
  obtain ⟨b', hb, hp'⟩ := hset .null {} [] ⟨rfl, rfl⟩
  have hD' : ∀ q, q ∉ D → (V.set r .null).get q = .null := by
    intro q hq
    rw [RV.get_set]
    split
    · rfl
    · exact hD q hq
  refine ⟨(), s.mark, s.inp, V.set r .null, (a, .bytes (t ++ List.replicate k 0)) :: c, b', rfl, ⟨rfl, rfl, hb, hD'⟩, e.perm ?_, rfl, a, k, hs, hk, rfl⟩
  rw [List.perm_iff_count]
  intro z
  have h1 := List.perm_iff_count.mp hp z
  have h2 := List.perm_iff_count.mp hp' z
  simp only [List.count_append, List.count_cons, List.count_nil] at h1 h2 ⊢
  omega

/-- No string is in use. -/
def nullV : RV := ⟨.null, .null, .null, .null⟩

theorem nullV_get (r : Reg) : nullV.get r = .null := by cases r <;> rfl

/-- A scanning function with the strings `D` and the label `error`. -/
theorem lr_orDel {m : HL β} {x : Lex α} {Q : β → α → RV → Blocks → Prop} (hnd : D.Nodup) (hQ : ∀ v a W d, Q v a W d → W = nullV)
    (h : LRel o A base D nullV c keep m x Q) : LRel o A base [] nullV c keep (orDel D m) x Q := by
  intro s t inp b hh hr e sane
  have := h s t inp b hh ⟨hr.1, hr.2.1, hr.2.2.1, fun r _ => nullV_get r⟩ e sane
  unfold hw orDel at *
  revert this
  rcases m s hh with er | ⟨⟨er | v, s'⟩, h'⟩ <;> intro this
  · exact this
  · obtain ⟨⟨j, t', inp', b', ⟨h1, h2, h3, h4⟩, e'⟩, hf⟩ := this
    have key : ∀ (L : List Reg) (regs : Reg → HStr) (j : RV) (b' : Blocks) (h' : Heap), L.Nodup → RAt j regs b' → (∀ q, q ∈ L → regs q = s'.regs q) →
        (∀ q, q ∉ L → j.get q = .null) →
        Ext A base (b' ++ keep) h' → hw (sDelAll L s') (fun _ h2 => Ext A base keep h2) h' := by
      intro L
      induction L with
      | nil =>
        intro regs j b' h' _ hra _ hn e'
        obtain ⟨b1, b2, b3, b4, g1, g2, g3, g4, rfl⟩ := hra
        have n1 : j.str = .null := hn .str (by simp)
        have n2 : j.lead = .null := hn .lead (by simp)
        have n3 : j.trail = .null := hn .trail (by simp)
        have n4 : j.white = .null := hn .white (by simp)
        rw [n1] at g1; rw [n2] at g2; rw [n3] at g3; rw [n4] at g4
        obtain ⟨-, rfl⟩ := g1
        obtain ⟨-, rfl⟩ := g2
        obtain ⟨-, rfl⟩ := g3
        obtain ⟨-, rfl⟩ := g4
        exact e'
      | cons r rs ih =>
        intro regs j b' h' hnd hra hq hn e'
        obtain ⟨x, y, hp, hs, hset⟩ := hra.focus r
        obtain ⟨b2, hb2, hp2⟩ := hset .null {} [] ⟨rfl, rfl⟩
        have hn2 : ∀ q, q ∉ rs → (j.set r .null).get q = .null := by
          intro q hq
          rw [RV.get_set]
          split
          · rfl
          · rename_i hne
            exact hn q (by simp [hne, hq])
        have hq2 : ∀ q, q ∈ rs → (if q = r then ({} : HStr) else regs q) = s'.regs q := by
          intro q hqm
          rw [if_neg (by rintro rfl; exact (List.nodup_cons.mp hnd).1 hqm)]
          exact hq q (List.mem_cons_of_mem _ hqm)
        have hrest : ∀ h2, Ext A base (y ++ keep) h2 → hw (sDelAll rs s') (fun _ h2 => Ext A base keep h2) h2 := fun h2 e2 =>
          ih _ _ b2 h2 (List.nodup_cons.mp hnd).2 hb2 hq2 hn2 (e2.perm (by blocks_by hp2.symm))
        show hw (do free (s'.regs r).start; sDelAll rs s') _ h'
        rw [hw_bind, ← hq r List.mem_cons_self]
        cases hv : j.get r with
        | null =>
          rw [hv] at hs
          obtain ⟨hs, rfl⟩ := hs
          rw [hs]
          exact hw_free_null (hrest _ (e'.perm (by blocks_by hp)))
        | bytes t n =>
          rw [hv] at hs
          obtain ⟨a, k, hs, rfl, _, _⟩ := hs
          rw [hs]
          exact hw_free (o := .bytes (t ++ List.replicate k 0)) e' (by blocks_by hp) (fun h2 e2 => hrest h2 e2)
        | stale =>
          rw [hv] at hs
          obtain ⟨a, mem, hs, rfl, _⟩ := hs
          rw [hs]
          exact hw_free (o := .bytes mem) e' (by blocks_by hp) (fun h2 e2 => hrest h2 e2)
    have := key D s'.regs j b' h' hnd h3 (fun _ _ => rfl) h4 e'
    obtain ⟨u, h2, hcl, e2⟩ := hw_out this
    simp only [hcl]
    refine ⟨⟨⟨.null, .null, .null, .null⟩, s'.mark, s'.inp, [], ⟨rfl, rfl, ⟨[], [], [], [], ⟨rfl, rfl⟩, ⟨rfl, rfl⟩, ⟨rfl, rfl⟩, ⟨rfl, rfl⟩, rfl⟩, ?_⟩, e2⟩, hf⟩
    intro r _
    cases r <;> rfl
  · obtain ⟨a, t', inp', j, d, b', hrun, ⟨g1, g2, g3, g4⟩, e', hq⟩ := this
    have := hQ _ _ _ _ hq
    subst this
    exact ⟨a, t', inp', nullV, d, b', hrun, ⟨g1, g2, g3, fun r _ => nullV_get r⟩, e', hq⟩

/-! ### The current character -/

/-- The relation for states in which the current character is known. -/
def LPre (o : Oracle) (A : Prop) (base : Nat → Option Obj) (D : List Reg) (ch : Nat) (V : RV) (c keep : Blocks) (m : HL β) (x : Lex α)
    (Q : β → α → RV → Blocks → Prop) : Prop :=
  ∀ s t inp b h, lookR inp 0 = .ok ch → LRep D V s t inp b → Ext A base (b ++ c) h → Sane ((x t).runR o inp) →
    hw (m s) (XPost (LRep D) A base (fun _ => False) ((x t).runR o inp) keep Q) h

theorem LPre.of {ch : Nat} {m : HL β} {x : Lex α} {Q : β → α → RV → Blocks → Prop} (h : LRel o A base D V c keep m x Q) :
    LPre o A base D ch V c keep m x Q := fun s t inp b hh _ hr e sane => h s t inp b hh hr e sane

theorem lp_ite {ch : Nat} {p : Prop} [Decidable p] {m n : HL β} {x y : Lex α} {Q : β → α → RV → Blocks → Prop}
    (h1 : p → LPre o A base D ch V c keep m x Q) (h2 : ¬ p → LPre o A base D ch V c keep n y Q) :
    LPre o A base D ch V c keep (if p then m else n) (if p then x else y) Q := by
  by_cases hc : p
  · rw [if_pos hc, if_pos hc]; exact h1 hc
  · rw [if_neg hc, if_neg hc]; exact h2 hc

theorem runR_peek {m : Mark} {inp : RS} {j : Nat} : ((peekC j) m).runR o inp = match lookR inp j with | .ok ch => .ok ((ch, m), inp) | .error e => .error e := by
  show Prog.runR o (.look j fun c => .ret (c, m)) inp = _
  unfold Prog.runR
  cases lookR inp j <;> rfl

/-- Looking at the current character. -/
theorem lr_peek {k : Nat → HL β} {y : Nat → Lex α} {Q : β → α → RV → Blocks → Prop} (h : ∀ ch, LPre o A base D ch V c c (k ch) (y ch) Q) :
    LRel o A base D V c c (hin o (peekC 0) >>= k) (peekC 0 >>= y) Q := by
  intro s t inp b hh hr e sane
  cases hl : lookR inp 0 with
  | error er =>
    have hx := lr_hin (o := o) (x := peekC 0) s t inp b hh hr e
    rw [runS_bind, runR_peek, hl] at sane ⊢
    rw [runR_peek, hl] at hx
    rw [xw_bind]
    refine hw_mono (hx (fun e he => sane e (by cases he; rfl))) ?_
    rintro ⟨er | v, s'⟩ h' post
    · obtain ⟨hk, hf⟩ := post
      refine ⟨hk, ?_⟩
      rcases hf with ⟨f, hf, hv⟩ | hm
      · cases hf; exact .inl ⟨_, rfl, hv⟩
      · exact .inr hm
    · obtain ⟨a, t', inp', j, d, b', hrun, _⟩ := post
      cases hrun
  | ok ch =>
    rw [runS_bind, runR_peek, hl] at sane ⊢
    rw [xw_bind]
    obtain ⟨rfl, rfl, hr⟩ := hr
    unfold hin
    rw [runR_peek, hl]
    exact h ch s s.mark s.inp b hh hl ⟨rfl, rfl, hr⟩ e sane

end

end LibYaml
