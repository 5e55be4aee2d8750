import Verif.Model.EventApi

/-!
# Reasoning about the heap

`Ext A base bs h`: the heap consists of the blocks of `base` and, apart from them, of the blocks `bs`; if `A` holds no allocation will fail.
-/

namespace LibYaml

/-- Blocks with their addresses. -/
abbrev Blocks := List (Nat × Obj)

structure Ext (A : Prop) (base : Nat → Option Obj) (bs : Blocks) (h : Heap) : Prop where
  cells : ∀ p o, h.mem p = some o ↔ (base p = some o ∨ (p, o) ∈ bs)
  keys : (bs.map Prod.fst).Nodup
  sep : ∀ x ∈ bs, base x.1 = none
  fresh : ∀ p, h.next ≤ p → h.mem p = none
  all : A → ∀ k, h.ok k = true

/-- No block is allocated at or above the next address. -/
def Heap.Fresh (h : Heap) : Prop := ∀ p, h.next ≤ p → h.mem p = none

theorem Ext.start {h : Heap} (hf : h.Fresh) {A : Prop} (ha : A → ∀ k, h.ok k = true) : Ext A h.mem [] h :=
  ⟨(fun p o => by simp), List.nodup_nil, (fun x hx => by cases hx), hf, ha⟩

theorem Ext.done {A : Prop} {base : Nat → Option Obj} {h : Heap} (e : Ext A base [] h) : h.mem = base := by
  funext p
  have := e.cells p
  cases hb : base p with
  | none =>
    cases hm : h.mem p with
    | none => rfl
    | some o =>
      have := (this o).mp hm
      rw [hb] at this
      simp at this
  | some o => exact (this o).mpr (.inl hb)

theorem Ext.perm {A : Prop} {base : Nat → Option Obj} {bs bs' : Blocks} {h : Heap} (e : Ext A base bs h) (hp : bs.Perm bs') : Ext A base bs' h :=
  ⟨fun p o => by rw [e.cells, hp.mem_iff], (hp.map _).nodup_iff.mp e.keys, fun x hx => e.sep x (hp.mem_iff.mpr hx), e.fresh, e.all⟩

/-- Total correctness: the program ends without undefined behaviour and the result satisfies `Q`. -/
def hw {α : Type} (m : HM α) (Q : α → Heap → Prop) (h : Heap) : Prop :=
  match m h with
  | .ok (a, h') => Q a h'
  | .error _ => False

theorem hw_out {α : Type} {m : HM α} {Q : α → Heap → Prop} {h : Heap} (x : hw m Q h) : ∃ a h', m h = .ok (a, h') ∧ Q a h' := by
  unfold hw at x
  split at x
  · exact ⟨_, _, by assumption, x⟩
  · exact x.elim

theorem hw_bind {α β : Type} {m : HM α} {k : α → HM β} {Q : β → Heap → Prop} {h : Heap} :
    hw (m >>= k) Q h ↔ hw m (fun a h' => hw (k a) Q h') h := by
  show hw (HM.bind m k) Q h ↔ _
  unfold hw HM.bind
  cases m h with
  | error e => exact Iff.rfl
  | ok x => exact Iff.rfl

theorem hw_pure {α : Type} {a : α} {Q : α → Heap → Prop} {h : Heap} : hw (pure a) Q h ↔ Q a h := Iff.rfl

theorem hw_mono {α : Type} {m : HM α} {Q Q' : α → Heap → Prop} {h : Heap} (x : hw m Q h) (hq : ∀ a h', Q a h' → Q' a h') : hw m Q' h := by
  unfold hw at *
  split <;> rename_i heq <;> rw [heq] at x
  · exact hq _ _ x
  · exact x

theorem hw_ite {β : Type} {c : Prop} [Decidable c] {m n : HM β} {Q : β → Heap → Prop} {h : Heap} :
    hw (if c then m else n) Q h ↔ if c then hw m Q h else hw n Q h := by
  by_cases hc : c
  · rw [if_pos hc, if_pos hc]
  · rw [if_neg hc, if_neg hc]

section
variable {A : Prop} {base : Nat → Option Obj} {bs bs' : Blocks} {h : Heap}

theorem hw_malloc {o : Obj} {Q : Ptr → Heap → Prop} (e : Ext A base bs h) (h0 : ∀ h', Ext A base bs h' → ¬ A → Q none h')
    (h1 : ∀ h' p, Ext A base ((p, o) :: bs) h' → Q (some p) h') : hw (malloc o) Q h := by
  unfold hw malloc
  cases hk : h.ok 0 with
  | true =>
    refine h1 _ _ ⟨?_, ?_, ?_, ?_, fun a k => e.all a _⟩
    · intro p o'
      have hn := e.fresh h.next (Nat.le_refl _)
      show (if p = h.next then some o else h.mem p) = some o' ↔ _
      by_cases hp : p = h.next
      · subst hp
        rw [if_pos rfl]
        have hb : ¬ (base h.next = some o' ∨ (h.next, o') ∈ bs) := by
          rw [← e.cells, hn]; simp
        simp only [not_or] at hb
        simp [hb.1, hb.2, eq_comm]
      · rw [if_neg hp, e.cells]
        simp [hp]
    · simp only [List.map_cons, List.nodup_cons]
      refine ⟨fun hx => ?_, e.keys⟩
      obtain ⟨x, hx, hp⟩ := List.mem_map.mp hx
      have := (e.cells x.1 x.2).mpr (.inr hx)
      rw [hp, e.fresh _ (Nat.le_refl _)] at this
      cases this
    · intro x hx
      rcases List.mem_cons.mp hx with rfl | hx
      · show base h.next = none
        cases hb : base h.next with
        | none => rfl
        | some o' =>
          have := (e.cells _ _).mpr (.inl hb)
          rw [e.fresh _ (Nat.le_refl _)] at this
          cases this
      · exact e.sep x hx
    · intro p hp
      have hp : h.next + 1 ≤ p := hp
      show (if p = h.next then some o else h.mem p) = none
      rw [if_neg (by omega)]
      exact e.fresh p (by omega)
  | false =>
    refine h0 _ ⟨e.cells, e.keys, e.sep, e.fresh, fun a k => e.all a _⟩ ?_
    intro a
    rw [e.all a 0] at hk; cases hk

theorem hw_free_null {Q : Unit → Heap → Prop} (hQ : Q () h) : hw (free none) Q h := hQ

theorem hw_free {p : Nat} {o : Obj} {Q : Unit → Heap → Prop} (e : Ext A base bs h) (hp : bs.Perm ((p, o) :: bs'))
    (hQ : ∀ h', Ext A base bs' h' → Q () h') : hw (free (some p)) Q h := by
  have e := e.perm hp
  have hm := (e.cells p o).mpr (.inr List.mem_cons_self)
  unfold hw free
  simp only [hm]
  have hk := e.keys
  simp only [List.map_cons, List.nodup_cons] at hk
  refine hQ _ ⟨?_, hk.2, fun x hx => e.sep x (List.mem_cons_of_mem _ hx), ?_, e.all⟩
  · intro q o'
    show (if q = p then none else h.mem q) = some o' ↔ _
    by_cases hq : q = p
    · subst hq
      rw [if_pos rfl]
      have hb := e.sep (q, o) List.mem_cons_self
      simp only at hb
      rw [hb]
      simp only [reduceCtorEq, false_or, false_iff]
      intro hx
      exact hk.1 (List.mem_map.mpr ⟨_, hx, rfl⟩)
    · rw [if_neg hq, e.cells]
      simp [hq]
  · intro q hq
    show (if q = p then none else h.mem q) = none
    split
    · rfl
    · exact e.fresh q hq

theorem hw_load {p : Nat} {o : Obj} {Q : Obj → Heap → Prop} (e : Ext A base bs h) (hp : (p, o) ∈ bs) (hQ : Q o h) : hw (loadObj (some p)) Q h := by
  have hm := (e.cells p o).mpr (.inr hp)
  unfold hw loadObj
  simp only [hm]
  exact hQ

theorem hw_store {p : Nat} {o o' : Obj} {Q : Unit → Heap → Prop} (e : Ext A base bs h) (hp : bs.Perm ((p, o) :: bs'))
    (hQ : ∀ h', Ext A base ((p, o') :: bs') h' → Q () h') : hw (store (some p) o') Q h := by
  have e := e.perm hp
  have hm := (e.cells p o).mpr (.inr List.mem_cons_self)
  unfold hw store
  simp only [hm]
  have hk := e.keys
  simp only [List.map_cons, List.nodup_cons] at hk
  refine hQ _ ⟨?_, by simpa using hk, ?_, ?_, e.all⟩
  · intro q o2
    show (if q = p then some o' else h.mem q) = some o2 ↔ _
    by_cases hq : q = p
    · subst hq
      rw [if_pos rfl]
      have hb := e.sep (q, o) List.mem_cons_self
      simp only at hb
      rw [hb]
      simp only [reduceCtorEq, false_or, List.mem_cons, Prod.mk.injEq, true_and, Option.some.injEq]
      constructor
      · intro hx; exact .inl hx.symm
      · rintro (hx | hx)
        · exact hx.symm
        · exact absurd (List.mem_map.mpr ⟨_, hx, rfl⟩) hk.1
    · rw [if_neg hq, e.cells]
      simp [hq]
  · intro x hx
    rcases List.mem_cons.mp hx with rfl | hx
    · exact e.sep (p, o) List.mem_cons_self
    · exact e.sep x (List.mem_cons_of_mem _ hx)
  · intro q hq
    show (if q = p then some o' else h.mem q) = none
    split
    · rename_i hqp
      subst hqp
      rw [e.fresh _ hq] at hm; cases hm
    · exact e.fresh q hq

end

/-! ### Strings -/

/-- The bytes before the first NUL. -/
def cbytes (buf : List UInt8) : List UInt8 := buf.takeWhile (· != 0)

theorem hw_strlen {buf : List UInt8} {h : Heap} {Q : Nat → Heap → Prop} (hz : 0 ∈ buf) (hQ : Q (cbytes buf).length h) : hw (strlen buf) Q h := by
  induction buf generalizing Q with
  | nil => cases hz
  | cons b r ih =>
    unfold strlen
    rw [hw_ite]
    by_cases hb : b = 0
    · rw [if_pos hb]
      subst hb
      exact hQ
    · rw [if_neg hb, hw_bind]
      have hz : 0 ∈ r := by
        rcases List.mem_cons.mp hz with h | h
        · exact absurd h.symm hb
        · exact h
      refine ih hz ?_
      rw [hw_pure]
      have : cbytes (b :: r) = b :: cbytes r := by
        unfold cbytes
        rw [List.takeWhile_cons, if_pos (by simpa using hb)]
      rw [this] at hQ
      exact hQ

theorem cbytes_take (buf : List UInt8) : (cbytes buf).length ≤ buf.length ∧ buf.take (cbytes buf).length = cbytes buf := by
  unfold cbytes
  induction buf with
  | nil => exact ⟨Nat.le_refl _, rfl⟩
  | cons b r ih =>
    rw [List.takeWhile_cons]
    split
    · exact ⟨by simpa using ih.1, by simpa using ih.2⟩
    · exact ⟨Nat.zero_le _, rfl⟩

theorem hw_bytesOf {buf : List UInt8} {n : Nat} {h : Heap} {Q : List UInt8 → Heap → Prop} (hn : n ≤ buf.length) (hQ : Q (buf.take n) h) :
    hw (bytesOf buf n) Q h := by
  unfold bytesOf
  rw [if_pos hn]
  exact hQ

/-- A string or `NULL`, its pointer, and the block it occupies; a block that the scanner has allocated may be larger than needed. -/
def StrAt : Option (List UInt8) → Ptr → Blocks → Prop
  | none, p, bs => p = none ∧ bs = []
  | some b, p, bs => ∃ a z, p = some a ∧ bs = [(a, .bytes (b ++ 0 :: z))]

section
variable {A : Prop} {base : Nat → Option Obj} {bs : Blocks} {h : Heap}

theorem hw_copyString {buf : List UInt8} {Q : Bool × Ptr → Heap → Prop} (e : Ext A base bs h) (hz : 0 ∈ buf)
    (h0 : ∀ h', Ext A base bs h' → (A → checkUtf8 (cbytes buf) = false) → Q (false, none) h')
    (h1 : ∀ h' p b, checkUtf8 (cbytes buf) = true → StrAt (some (cbytes buf)) p b → Ext A base (b ++ bs) h' → Q (true, p) h') :
    hw (copyString buf) Q h := by
  unfold copyString
  rw [hw_bind]
  refine hw_strlen hz ?_
  rw [hw_bind]
  refine hw_bytesOf (cbytes_take buf).1 ?_
  rw [(cbytes_take buf).2, hw_ite]
  cases hc : checkUtf8 (cbytes buf) with
  | false =>
    rw [if_pos (by decide), hw_pure]
    exact h0 h e (fun _ => hc)
  | true =>
    rw [if_neg (by decide), hw_bind]
    refine hw_malloc e (fun h' e' ha => ?_) (fun h' p e' => ?_)
    · exact h0 h' e' (fun a => absurd a ha)
    · exact h1 h' _ _ hc ⟨p, [], rfl, rfl⟩ e'

/-- A valid optional argument. -/
def OptOk (arg : Option (List UInt8)) : Prop := ∀ b ∈ arg, checkUtf8 (cbytes b) = true

/-- An optional argument is a C string. -/
def OptDef (arg : Option (List UInt8)) : Prop := ∀ b ∈ arg, 0 ∈ b

theorem hw_copyOptional {arg : Option (List UInt8)} {Q : Bool × Ptr → Heap → Prop} (e : Ext A base bs h) (hz : OptDef arg)
    (h0 : ∀ h', Ext A base bs h' → (A → ¬ OptOk arg) → Q (false, none) h')
    (h1 : ∀ h' p b, OptOk arg → StrAt (arg.map cbytes) p b → Ext A base (b ++ bs) h' → Q (true, p) h') :
    hw (copyOptional arg) Q h := by
  cases arg with
  | none => exact h1 h none [] (fun b hb => by cases hb) ⟨rfl, rfl⟩ e
  | some buf =>
    refine hw_copyString e (hz buf rfl) (fun h' e' ha => h0 h' e' (fun a hx => ?_)) (fun h' p b hc hs e' => h1 h' p b ?_ hs e')
    · have := hx buf rfl
      rw [ha a] at this; cases this
    · intro b hb
      cases hb
      exact hc

theorem hw_free_str {arg : Option (List UInt8)} {p : Ptr} {b bs' : Blocks} {Q : Unit → Heap → Prop} (e : Ext A base bs h) (hs : StrAt arg p b)
    (hp : bs.Perm (b ++ bs')) (hQ : ∀ h', Ext A base bs' h' → Q () h') : hw (free p) Q h := by
  cases arg with
  | none =>
    obtain ⟨rfl, rfl⟩ := hs
    exact hw_free_null (hQ h (e.perm hp))
  | some buf =>
    obtain ⟨a, z, rfl, rfl⟩ := hs
    exact hw_free e hp hQ

/-- The text of a scalar argument. -/
def valueBytes (buf : List UInt8) (length : Int) : List UInt8 := if length < 0 then cbytes buf else buf.take length.toNat

/-- The text can be read. -/
def ValueDef (buf : List UInt8) (length : Int) : Prop := if length < 0 then 0 ∈ buf else length.toNat ≤ buf.length

theorem hw_copyValue {buf : List UInt8} {length : Int} {Q : Bool × Ptr × Nat → Heap → Prop} (e : Ext A base bs h) (hz : ValueDef buf length)
    (h0 : ∀ h' n, Ext A base bs h' → (A → checkUtf8 (valueBytes buf length) = false) → Q (false, none, n) h')
    (h1 : ∀ h' p b, checkUtf8 (valueBytes buf length) = true → StrAt (some (valueBytes buf length)) p b → Ext A base (b ++ bs) h' →
      Q (true, p, (valueBytes buf length).length) h') : hw (copyValue buf length) Q h := by
  unfold copyValue
  rw [hw_bind]
  have key : ∀ n, n ≤ buf.length → buf.take n = valueBytes buf length → hw (do
      let b ← bytesOf buf n
      if !checkUtf8 b then return (false, none, n)
      else do
        let p ← malloc (.bytes (b ++ [0]))
        return (p.isSome, p, n)) Q h := by
    intro n hn hb
    rw [hw_bind]
    refine hw_bytesOf hn ?_
    have hlen : n = (valueBytes buf length).length := by rw [← hb, List.length_take]; omega
    rw [hb, hw_ite]
    cases hc : checkUtf8 (valueBytes buf length) with
    | false =>
      rw [if_pos (by decide), hw_pure]
      exact h0 h n e (fun _ => hc)
    | true =>
      rw [if_neg (by decide), hw_bind]
      refine hw_malloc e (fun h' e' ha => ?_) (fun h' p e' => ?_)
      · exact h0 h' n e' (fun a => absurd a ha)
      · rw [hw_pure, hlen]
        exact h1 h' _ _ hc ⟨p, [], rfl, rfl⟩ e'
  rw [hw_ite]
  unfold ValueDef at hz
  by_cases hl : length < 0
  · rw [if_pos hl] at hz ⊢
    refine hw_strlen hz (key _ (cbytes_take buf).1 ?_)
    rw [(cbytes_take buf).2]
    unfold valueBytes
    rw [if_pos hl]
  · rw [if_neg hl] at hz ⊢
    refine key _ hz ?_
    unfold valueBytes
    rw [if_neg hl]

end

/-! ### Stacks -/

class LawfulCell (α : Type) [Cell α] : Prop where
  unwrap_wrap : ∀ c : List (Option α), Cell.unwrap (Cell.wrap c) = some c

instance : LawfulCell (Ptr × Ptr) := ⟨fun _ => rfl⟩
instance : LawfulCell Int := ⟨fun _ => rfl⟩
instance : LawfulCell (Int × Int) := ⟨fun _ => rfl⟩
instance : LawfulCell HNode := ⟨fun _ => rfl⟩
instance : LawfulCell (Ptr × Nat) := ⟨fun _ => rfl⟩
instance : LawfulCell PState := ⟨fun _ => rfl⟩
instance : LawfulCell Mark := ⟨fun _ => rfl⟩
instance : LawfulCell HEvent := ⟨fun _ => rfl⟩
instance : LawfulCell EState := ⟨fun _ => rfl⟩
instance : LawfulCell HToken := ⟨fun _ => rfl⟩
instance : LawfulCell SimpleKey := ⟨fun _ => rfl⟩

section
variable {α : Type} [Cell α] [LawfulCell α] {A : Prop} {base : Nat → Option Obj} {bs bs' : Blocks} {h : Heap}

/-- The block of a stack that holds `vs` and has room for `n` more. -/
def stkObj (vs : List α) (n : Nat) : Obj := Cell.wrap (vs.map some ++ List.replicate n none)

omit [LawfulCell α] in
theorem hw_init {Q : Bool × HStk → Heap → Prop} (e : Ext A base bs h) (h0 : ∀ h', Ext A base bs h' → ¬ A → Q (false, {}) h')
    (h1 : ∀ h' a, Ext A base ((a, stkObj ([] : List α) 16) :: bs) h' → Q (true, ⟨some a, 0⟩) h') : hw (hInit α) Q h := by
  unfold hInit
  rw [hw_bind]
  exact hw_malloc e (fun h' e' ha => h0 h' e' ha) (fun h' p e' => h1 h' p e')

theorem hw_cells {a : Nat} {t : Nat} {c : List (Option α)} {Q : List (Option α) → Heap → Prop} (e : Ext A base bs h) (hm : (a, Cell.wrap c) ∈ bs)
    (hQ : Q c h) : hw (hCells α ⟨some a, t⟩) Q h := by
  unfold hCells
  rw [hw_bind]
  refine hw_load e hm ?_
  rw [LawfulCell.unwrap_wrap]
  exact hQ

omit [Cell α] [LawfulCell α] in
theorem memcpy_push {vs : List α} {v : α} {n : Nat} :
    memcpy (vs.map some ++ List.replicate (n + 1) none) vs.length [some v] = .ok ((vs ++ [v]).map some ++ List.replicate n none) := by
  unfold memcpy
  rw [if_pos (by simp)]
  congr 1
  have e1 : (vs.map some ++ List.replicate (n + 1) (none : Option α)).take vs.length = vs.map some := by
    rw [List.take_append_of_le_length (by simp)]
    rw [List.take_of_length_le (by simp)]
  have e2 : (vs.map some ++ List.replicate (n + 1) (none : Option α)).drop (vs.length + [some v].length) = List.replicate n none := by
    rw [List.drop_append, List.drop_of_length_le (by simp)]
    simp
  rw [e1, e2]
  simp

omit [LawfulCell α] in
theorem hw_put {a : Nat} {vs : List α} {n : Nat} {v : α} {Q : Bool × HStk → Heap → Prop} (e : Ext A base bs h)
    (hp : bs.Perm ((a, stkObj vs (n + 1)) :: bs'))
    (hQ : ∀ h', Ext A base ((a, stkObj (vs ++ [v]) n) :: bs') h' → Q (true, ⟨some a, vs.length + 1⟩) h') :
    hw (hPut v ⟨some a, vs.length⟩ (vs.map some ++ List.replicate (n + 1) none)) Q h := by
  unfold hPut
  simp only [memcpy_push]
  rw [hw_bind]
  exact hw_store e hp (fun h' e' => hQ h' e')

/-- The size at which `yaml_stack_extend` refuses to go on. -/
def stackLimit (α : Type) [Cell α] (n : Nat) : Prop := n * Cell.size α ≥ intMax / 2

theorem hw_push {a : Nat} {vs : List α} {n : Nat} {v : α} {Q : Bool × HStk → Heap → Prop} (e : Ext A base bs h)
    (hp : bs.Perm ((a, stkObj vs n) :: bs'))
    (h0 : ∀ h', Ext A base bs h' → (A → stackLimit α vs.length) → Q (false, ⟨some a, vs.length⟩) h')
    (h1 : ∀ h' a' n', Ext A base ((a', stkObj (vs ++ [v]) n') :: bs') h' → Q (true, ⟨some a', vs.length + 1⟩) h')
    (hv : vs ≠ [] ∨ n ≠ 0) :
    hw (hPush v ⟨some a, vs.length⟩) Q h := by
  unfold hPush
  rw [hw_bind]
  refine hw_cells e (hp.mem_iff.mpr List.mem_cons_self) ?_
  rw [hw_ite]
  cases n with
  | succ n =>
    rw [if_pos (by simp)]
    exact hw_put e hp (fun h' e' => h1 h' a n e')
  | zero =>
    rw [if_neg (by simp), hw_ite]
    simp only [List.replicate_zero, List.append_nil, List.length_map]
    split
    · rename_i hl
      exact h0 h e (fun _ => hl)
    · rw [hw_bind]
      refine hw_malloc e (fun h' e' ha => ?_) (fun h' p e' => ?_)
      · exact h0 h' e' (fun a => absurd a ha)
      · simp only []
        rw [hw_bind]
        refine hw_free (bs' := (p, stkObj vs vs.length) :: bs') (p := a) (o := stkObj vs 0) e' ?_ (fun h2 e2 => ?_)
        · have : Cell.wrap (List.map some vs ++ List.replicate vs.length (none : Option α)) = stkObj vs vs.length := rfl
          rw [this]
          exact (hp.cons _).trans (List.Perm.swap _ _ _)
        · have hne : vs ≠ [] := by
            rcases hv with h | h
            · exact h
            · exact absurd rfl h
          obtain ⟨m, hm⟩ : ∃ m, vs.length = m + 1 := ⟨vs.length - 1, by
            have := List.length_pos_iff.mpr hne
            omega⟩
          rw [hm] at e2
          have := hw_put (v := v) (Q := Q) e2 (List.Perm.refl _) (fun h' e' => h1 h' p m e')
          rw [← hm] at this
          exact this

theorem hw_get {a : Nat} {vs : List α} {n i t : Nat} {v : α} {Q : α → Heap → Prop} (e : Ext A base bs h)
    (hp : (a, stkObj vs n) ∈ bs) (hi : vs[i]? = some v) (hQ : Q v h) : hw (hGet i ⟨some a, t⟩) Q h := by
  unfold hGet
  rw [hw_bind]
  refine hw_cells e hp ?_
  have : (vs.map some ++ List.replicate n (none : Option α))[i]? = some (some v) := by
    have hlt : i < vs.length := by
      rcases Nat.lt_or_ge i vs.length with h | h
      · exact h
      · rw [List.getElem?_eq_none h] at hi; cases hi
    rw [List.getElem?_append_left (by simpa using hlt), List.getElem?_map, hi]
    rfl
  rw [this]
  exact hQ

theorem hw_pop {a : Nat} {vs : List α} {n : Nat} {v : α} {Q : α × HStk → Heap → Prop} (e : Ext A base bs h)
    (hp : bs.Perm ((a, stkObj (vs ++ [v]) n) :: bs'))
    (hQ : ∀ h', Ext A base ((a, stkObj vs (n + 1)) :: bs') h' → Q (v, ⟨some a, vs.length⟩) h') : hw (hPop ⟨some a, vs.length + 1⟩) Q h := by
  unfold hPop
  rw [if_neg (by simp), hw_bind]
  refine hw_cells e (hp.mem_iff.mpr List.mem_cons_self) ?_
  have hget : ((vs ++ [v]).map some ++ List.replicate n (none : Option α))[vs.length + 1 - 1]? = some (some v) := by simp
  have hset : ((vs ++ [v]).map some ++ List.replicate n (none : Option α)).set (vs.length + 1 - 1) none = vs.map some ++ List.replicate (n + 1) none := by
    rw [List.map_append, List.append_assoc, List.set_append_right _ _ (by simp)]
    simp [List.replicate_succ]
  simp only [hget, hset]
  rw [hw_bind]
  exact hw_store e hp (fun h' e' => hQ h' e')

theorem hw_set {a : Nat} {vs ws : List α} {n i t : Nat} {v w : α} {Q : Unit → Heap → Prop} (e : Ext A base bs h)
    (hp : bs.Perm ((a, stkObj (vs ++ v :: ws) n) :: bs')) (hi : i = vs.length)
    (hQ : ∀ h', Ext A base ((a, stkObj (vs ++ w :: ws) n) :: bs') h' → Q () h') : hw (hSet i w ⟨some a, t⟩) Q h := by
  unfold hSet
  rw [hw_bind]
  refine hw_cells e (hp.mem_iff.mpr List.mem_cons_self) ?_
  have : memcpy ((vs ++ v :: ws).map some ++ List.replicate n (none : Option α)) i [some w] = .ok ((vs ++ w :: ws).map some ++ List.replicate n none) := by
    unfold memcpy
    rw [if_pos (by simp; omega), hi]
    congr 1
    simp [List.drop_append]
  simp only [this]
  exact hw_store e hp hQ

end

end LibYaml
