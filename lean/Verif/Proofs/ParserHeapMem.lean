import Verif.Proofs.ParserHeapRun

/-!
# The source of tokens with five blocks of memory
-/

namespace LibYaml

open Spec

variable {σ : Type}

/-- An invariant of the source of tokens. -/
class SrcInv (σ : Type) where
  good : σ → Prop

/-- The invariant is kept, and tokens are readable. -/
def KeepsSrc [SrcInv σ] [Strict] (S : TokSrc σ) : Prop :=
  ∀ x t y, SrcInv.good x → S.next x = .ok (t, y) → TokOk t.data ∧ SrcInv.good y

/-- Buffers, queue and stacks of the scanner. -/
def MemAt (x : MemSrc σ) (b : Blocks) : Prop :=
  ∃ y1 y2 y3 y4 y5, StrAt (some []) x.rawBuffer y1 ∧ StrAt (some []) x.buffer y2 ∧ StrAt (some []) x.tokens y3 ∧ StrAt (some []) x.indents y4 ∧
    StrAt (some []) x.simpleKeys y5 ∧ b = y1 ++ (y2 ++ (y3 ++ (y4 ++ y5)))

instance : SrcMem (MemSrc σ) where
  left := MemAt
  full _ := False

instance [SrcInv σ] : SrcLink (MemSrc σ) σ where
  own x y b := x.src = y ∧ SrcInv.good y ∧ MemAt x b
  left h := h.2.2

theorem mem_link [SrcInv σ] [Strict] {S : TokSrc σ} (hS : KeepsSrc S) (src : σ) : Link (ρ := MemSrc σ) (memSrc S src) S where
  next := by
    rintro A base x y b fr h ⟨rfl, hg, hm⟩ e hu hf
    show hw (memNext S x) _ h
    unfold memNext
    cases hn : S.next x.src with
    | error er =>
      rw [hn] at hu hf
      exact ⟨⟨b, hm, e⟩, .inl rfl⟩
    | ok r =>
      obtain ⟨t, y⟩ := r
      simp only
      rw [hw_bind]
      refine hw_giveToken e fun h' d x' j1 j2 => ?_
      have := hS _ _ _ hg hn
      exact ⟨t, y, b, x', rfl, this.1, j1, rfl, rfl, ⟨rfl, this.2, hm⟩, j2⟩
  depth := by
    rintro x y b ⟨rfl, _⟩
    rfl

section
variable {A : Prop} {base : Nat → Option Obj}

theorem hw_memClose {x : MemSrc σ} {x1 x2 x3 x4 x5 : Blocks} {a1 a2 a3 a4 a5 : Option (List UInt8)} {bs : Blocks} {h : Heap} {Q : Unit → Heap → Prop}
    (k1 : StrAt a1 x.rawBuffer x1) (k2 : StrAt a2 x.buffer x2) (k3 : StrAt a3 x.tokens x3) (k4 : StrAt a4 x.indents x4) (k5 : StrAt a5 x.simpleKeys x5)
    (e : Ext A base (x1 ++ (x2 ++ (x3 ++ (x4 ++ x5))) ++ bs) h) (h0 : ∀ h', Ext A base bs h' → Q () h') : hw (memClose x) Q h := by
  unfold memClose
  rw [hw_bind]
  refine hw_free_str e k1 (bs' := x2 ++ (x3 ++ (x4 ++ (x5 ++ bs)))) (by blocks) fun g1 e => ?_
  rw [hw_bind]
  refine hw_free_str e k2 (bs' := x3 ++ (x4 ++ (x5 ++ bs))) (.refl _) fun g1 e => ?_
  rw [hw_bind]
  refine hw_free_str e k3 (bs' := x4 ++ (x5 ++ bs)) (.refl _) fun g1 e => ?_
  rw [hw_bind]
  refine hw_free_str e k4 (bs' := x5 ++ bs) (.refl _) fun g1 e => ?_
  exact hw_free_str e k5 (bs' := bs) (.refl _) h0

theorem hw_memError {x : MemSrc σ} {x1 x2 x3 x4 x5 : Blocks} {a1 a2 a3 a4 a5 : Option (List UInt8)} {bs : Blocks} {h : Heap} {Q : Bool × MemSrc σ → Heap → Prop}
    (k1 : StrAt a1 x.rawBuffer x1) (k2 : StrAt a2 x.buffer x2) (k3 : StrAt a3 x.tokens x3) (k4 : StrAt a4 x.indents x4) (k5 : StrAt a5 x.simpleKeys x5)
    (e : Ext A base (x1 ++ (x2 ++ (x3 ++ (x4 ++ x5))) ++ bs) h) (h0 : ∀ h', Ext A base bs h' → Q (false, x) h') : hw (memError x) Q h := by
  unfold memError
  rw [hw_bind]
  exact hw_memClose k1 k2 k3 k4 k5 e fun h' e' => h0 h' e'

end

theorem mem_closes {S : TokSrc σ} {src : σ} : SrcCloses (ρ := MemSrc σ) (memSrc S src) where
  close := by
    rintro A base x b fr h Q ⟨y1, y2, y3, y4, y5, k1, k2, k3, k4, k5, rfl⟩ e h0
    exact hw_memClose k1 k2 k3 k4 k5 e h0

theorem mem_starts [SrcInv σ] {S : TokSrc σ} {src : σ} (hsrc : SrcInv.good src) : SrcStarts (ρ := MemSrc σ) (memSrc S src) src where
  toSrcCloses := mem_closes
  start := by
    intro A base fr h Q e h0 h1
    show hw (memStart src) Q h
    have gone : StrAt none none [] := ⟨rfl, rfl⟩
    unfold memStart
    rw [hw_bind]
    refine hw_malloc e (fun h' e' ha => ?_) (fun h' p1 e' => ?_)
    · exact hw_memError gone gone gone gone gone e' fun h' e' => h0 h' _ e' ha
    have s1 : StrAt (some []) (some p1) [(p1, .bytes [0])] := ⟨p1, [], rfl, rfl⟩
    rw [if_neg (by simp), hw_bind]
    refine hw_malloc e' (fun h' e' ha => ?_) (fun h' p2 e' => ?_)
    · exact hw_memError s1 gone gone gone gone (e'.perm (by blocks)) fun h' e' => h0 h' _ e' ha
    have s2 : StrAt (some []) (some p2) [(p2, .bytes [0])] := ⟨p2, [], rfl, rfl⟩
    rw [if_neg (by simp), hw_bind]
    refine hw_malloc e' (fun h' e' ha => ?_) (fun h' p3 e' => ?_)
    · exact hw_memError s1 s2 gone gone gone (e'.perm (by blocks)) fun h' e' => h0 h' _ e' ha
    have s3 : StrAt (some []) (some p3) [(p3, .bytes [0])] := ⟨p3, [], rfl, rfl⟩
    rw [if_neg (by simp), hw_bind]
    refine hw_malloc e' (fun h' e' ha => ?_) (fun h' p4 e' => ?_)
    · exact hw_memError s1 s2 s3 gone gone (e'.perm (by blocks)) fun h' e' => h0 h' _ e' ha
    have s4 : StrAt (some []) (some p4) [(p4, .bytes [0])] := ⟨p4, [], rfl, rfl⟩
    rw [if_neg (by simp), hw_bind]
    refine hw_malloc e' (fun h' e' ha => ?_) (fun h' p5 e' => ?_)
    · exact hw_memError s1 s2 s3 s4 gone (e'.perm (by blocks)) fun h' e' => h0 h' _ e' ha
    have s5 : StrAt (some []) (some p5) [(p5, .bytes [0])] := ⟨p5, [], rfl, rfl⟩
    rw [if_neg (by simp)]
    exact h1 h' _ _ ⟨rfl, hsrc, _, _, _, _, _, s1, s2, s3, s4, s5, rfl⟩ (e'.perm (by blocks))

end LibYaml
