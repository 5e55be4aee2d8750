import Verif.Spec.Suite
import Mathlib.Tactic.Tauto

/-! Lines of the test suite are read as they were printed: the parts. -/

namespace LibYaml

open Spec

/-! ### ASCII characters in UTF-8 -/

theorem mem_utf8 {b c : Nat} (hb : b < 0x80) (hc : c < 0x110000) : UInt8.ofNat b ∈ utf8 c ↔ b = c := by
  have key : ∀ x y : Nat, x < 256 → y < 256 → (UInt8.ofNat x = UInt8.ofNat y ↔ x = y) := by
    intro x y hx hy
    constructor
    · intro h
      have := congrArg UInt8.toNat h
      simp only [UInt8.toNat_ofNat'] at this
      omega
    · rintro rfl; rfl
  unfold utf8
  split
  · simp only [List.mem_singleton]; rw [key _ _ (by omega) (by omega)]
  · split
    · simp only [List.mem_cons, List.not_mem_nil, or_false]
      rw [key _ _ (by omega) (by omega), key _ _ (by omega) (by omega)]; omega
    · split
      · simp only [List.mem_cons, List.not_mem_nil, or_false]
        rw [key _ _ (by omega) (by omega), key _ _ (by omega) (by omega), key _ _ (by omega) (by omega)]; omega
      · simp only [List.mem_cons, List.not_mem_nil, or_false]
        rw [key _ _ (by omega) (by omega), key _ _ (by omega) (by omega), key _ _ (by omega) (by omega), key _ _ (by omega) (by omega)]; omega

theorem mem_utf8s_ascii {b : Nat} {t : List Nat} (hb : b < 0x80) (ht : ∀ c ∈ t, c < 0x110000) : UInt8.ofNat b ∈ utf8s t ↔ b ∈ t := by
  unfold utf8s
  rw [List.mem_flatMap]
  constructor
  · rintro ⟨c, hc, h⟩
    rw [mem_utf8 hb (ht c hc)] at h
    exact h ▸ hc
  · intro h
    exact ⟨b, h, (mem_utf8 hb (ht b h)).mpr rfl⟩

/-! ### Searching -/

theorem takeWhile_until {x y : List UInt8} {c : UInt8} (h : c ∉ x) : (x ++ c :: y).takeWhile (· != c) = x := by
  induction x with
  | nil => simp
  | cons a x ih =>
    have h1 : a ≠ c := fun e => h (by simp [e])
    rw [List.cons_append, List.takeWhile_cons_of_pos (by simpa using h1), ih (fun e => h (by simp [e]))]

theorem takeWhile_none {x : List UInt8} {c : UInt8} (h : c ∉ x) : x.takeWhile (· != c) = x := by
  induction x with
  | nil => rfl
  | cons a x ih =>
    have h1 : a ≠ c := fun e => h (by simp [e])
    rw [List.takeWhile_cons_of_pos (by simpa using h1), ih (fun e => h (by simp [e]))]

theorem dropWhile_until {x y : List UInt8} {c : UInt8} (h : c ∉ x) : (x ++ c :: y).dropWhile (· != c) = c :: y := by
  induction x with
  | nil => simp
  | cons a x ih =>
    have h1 : a ≠ c := fun e => h (by simp [e])
    rw [List.cons_append, List.dropWhile_cons_of_pos (by simpa using h1), ih (fun e => h (by simp [e]))]

theorem mem_takeWhile_both {p : UInt8 → Bool} {x : List UInt8} {b : UInt8} (h : b ∈ x.takeWhile p) : p b = true ∧ b ∈ x := by
  induction x with
  | nil => cases h
  | cons a x ih =>
    rw [List.takeWhile_cons] at h
    split at h
    · rcases List.mem_cons.mp h with rfl | h
      · exact ⟨‹_›, by simp⟩
      · exact ⟨(ih h).1, by simp [(ih h).2]⟩
    · cases h

theorem dropWhile_none {x : List UInt8} {c : UInt8} (h : c ∉ x) : x.dropWhile (· != c) = [] := by
  induction x with
  | nil => rfl
  | cons a x ih =>
    have h1 : a ≠ c := fun e => h (by simp [e])
    rw [List.dropWhile_cons_of_pos (by simpa using h1), ih (fun e => h (by simp [e]))]

theorem cstrB_id {x : List UInt8} (h : (0 : UInt8) ∉ x) : cstrB x = x := takeWhile_none h

theorem cstrB_eq_iff {x : List UInt8} : cstrB x = x ↔ (0 : UInt8) ∉ x := by
  refine ⟨fun h h0 => ?_, cstrB_id⟩
  obtain ⟨a, b, rfl⟩ := List.append_of_mem h0
  have : ∀ y ∈ cstrB (a ++ 0 :: b), (y != 0) = true := fun y hy => (mem_takeWhile_both hy).1
  rw [h] at this
  simpa using this 0 (by simp)

/-! ### Anchors and tags -/

theorem suiteAnchor_none {s : UInt8} {l : List UInt8} : suiteAnchor s l = .ok none ↔ s ∉ l := by
  constructor
  · intro h hs
    obtain ⟨a, b, rfl, ha⟩ := List.eq_append_cons_of_mem hs
    unfold suiteAnchor at h
    rw [dropWhile_until ha] at h
    simp only at h
    split at h <;> cases h
  · intro h
    unfold suiteAnchor
    rw [dropWhile_none h]

theorem suiteAnchor_some {s : UInt8} {x a y : List UInt8} (hx : s ∉ x) (ha : ch ' ' ∉ a) (hy : y = [] ∨ ∃ z, y = ch ' ' :: z) :
    suiteAnchor s (x ++ s :: (a ++ y)) = .ok (some a) ↔ a.length < 256 := by
  unfold suiteAnchor
  rw [dropWhile_until hx]
  have : (a ++ y).takeWhile (· != ch ' ') = a := by
    rcases hy with rfl | ⟨z, rfl⟩
    · rw [List.append_nil]; exact takeWhile_none ha
    · exact takeWhile_until ha
  simp only [this]
  split <;> simp [*]

theorem suiteTag_none {l : List UInt8} : suiteTag l = .ok none ↔ ¬ (ch '<' ∈ l ∧ ch '>' ∈ l) := by
  unfold suiteTag
  split
  · split
    · simp only
      split
      · simp [*]
      · split <;> simp [*]
    · simp [*]
  · simp [*]

theorem suiteTag_some {x t y : List UInt8} (h1 : ch '<' ∉ x) (h2 : ch '>' ∉ x) (h3 : ch '>' ∉ t) :
    suiteTag (x ++ ch '<' :: (t ++ ch '>' :: y)) = .ok (some t) ↔ t.length < 256 := by
  unfold suiteTag
  rw [if_pos (by simp), if_pos (by simp)]
  have e1 : (x ++ ch '<' :: (t ++ ch '>' :: y)).takeWhile (· != ch '<') = x := takeWhile_until h1
  have e2 : (x ++ ch '<' :: (t ++ ch '>' :: y)).takeWhile (· != ch '>') = x ++ ch '<' :: t := by
    have : x ++ ch '<' :: (t ++ ch '>' :: y) = (x ++ ch '<' :: t) ++ ch '>' :: y := by simp
    rw [this]
    refine takeWhile_until fun h => ?_
    rcases List.mem_append.mp h with h | h
    · exact h2 h
    · rcases List.mem_cons.mp h with h | h
      · revert h; decide
      · exact h3 h
  simp only [e1, e2]
  have e3 : (x ++ ch '<' :: t).length - x.length - 1 = t.length := by simp
  have e4 : (x ++ ch '<' :: (t ++ ch '>' :: y)).drop (x.length + 1) = t ++ ch '>' :: y := by
    rw [← List.drop_drop, List.drop_left]; rfl
  rw [if_neg (by simp), e3, e4, List.take_left]
  split <;> simp [*]

/-! ### Values -/

theorem putByte_ok {acc : List UInt8} {c : UInt8} (h : acc.length < 1024) : putByte acc c = .ok (acc ++ [c]) := by
  unfold putByte; rw [if_pos h]

theorem unescape_plain {c : UInt8} {r acc : List UInt8} (hc : c ≠ ch '\\') (h : acc.length < 1024) :
    unescape (c :: r) acc = unescape r (acc ++ [c]) := by
  cases r with
  | nil => rw [show unescape [c] acc = if c = ch '\\' then .error .aborted else (do let acc ← putByte acc c; unescape [] acc) by rw [unescape], if_neg hc, putByte_ok h]; rfl
  | cons d r => rw [unescape, if_neg hc, putByte_ok h]; rfl

theorem unescape_pair {d b : UInt8} {r acc : List UInt8} (hd : unescapeByte d = some b) (h : acc.length < 1024) :
    unescape (ch '\\' :: d :: r) acc = unescape r (acc ++ [b]) := by
  rw [unescape, if_pos rfl, hd]
  simp only
  rw [putByte_ok h]; rfl

theorem unescape_byte {c : UInt8} {r acc : List UInt8} (h : acc.length < 1024) :
    unescape (printByte c ++ r) acc = unescape r (acc ++ [c]) := by
  unfold printByte
  split
  · subst c; exact unescape_pair (by decide) h
  split
  · subst c; exact unescape_pair (by decide) h
  split
  · subst c; exact unescape_pair (by decide) h
  split
  · subst c; exact unescape_pair (by decide) h
  split
  · subst c; exact unescape_pair (by decide) h
  split
  · subst c; exact unescape_pair (by decide) h
  · exact unescape_plain ‹_› h

theorem unescape_printed {v acc : List UInt8} (h : (acc ++ v).length < 1024) : unescape (printEscaped v) acc = .ok (acc ++ v) := by
  induction v generalizing acc with
  | nil =>
    rw [List.append_nil] at *
    show unescape [] acc = _
    rw [unescape, if_pos h]
  | cons c v ih =>
    have : printEscaped (c :: v) = printByte c ++ printEscaped v := rfl
    rw [this, unescape_byte (by simp at h; omega), ih (by simpa using h)]
    simp

theorem printByte_ne_nil (c : UInt8) : 1 ≤ (printByte c).length := by
  unfold printByte
  repeat' split
  all_goals first | decide | simp

theorem length_printEscaped (v : List UInt8) : v.length ≤ (printEscaped v).length := by
  induction v with
  | nil => simp
  | cons c v ih =>
    have : printEscaped (c :: v) = printByte c ++ printEscaped v := rfl
    rw [this, List.length_append, List.length_cons]
    have := printByte_ne_nil c
    omega

/-- The characters that are not changed. -/
theorem mem_printByte {b c : UInt8} (h1 : b ∉ asc ['\\', '0', 'b', 'n', 'r', 't']) : b ∈ printByte c ↔ b = c ∧ c ∉ [0, 8, 10, 13, 9] := by
  unfold printByte
  repeat' split
  all_goals (try subst c)
  all_goals simp_all [asc]

theorem mem_printEscaped {b : UInt8} {v : List UInt8} (h1 : b ∉ asc ['\\', '0', 'b', 'n', 'r', 't']) (h2 : b ∉ [0, 8, 10, 13, 9]) :
    b ∈ printEscaped v ↔ b ∈ v := by
  unfold printEscaped
  rw [List.mem_flatMap]
  constructor
  · rintro ⟨c, hc, h⟩
    rw [mem_printByte h1] at h
    exact h.1 ▸ hc
  · intro h
    exact ⟨b, h, (mem_printByte h1).mpr ⟨rfl, h2⟩⟩

theorem not_mem_printEscaped {b : UInt8} {v : List UInt8} (h1 : b ∉ asc ['\\', '0', 'b', 'n', 'r', 't']) (h2 : b ∈ [0, 8, 10, 13, 9]) :
    b ∉ printEscaped v := by
  unfold printEscaped
  rw [List.mem_flatMap]
  rintro ⟨c, hc, h⟩
  rw [mem_printByte h1] at h
  exact h.2 (h.1 ▸ h2)

theorem findStyle_skip {x r : List UInt8} (h : ch ' ' ∉ x) : findStyle (x ++ r) = findStyle r := by
  induction x with
  | nil => rfl
  | cons c x ih =>
    rw [List.cons_append, findStyle, if_neg (fun e => h (by simp [e])), ih (fun e => h (by simp [e]))]

theorem findStyle_space {d : UInt8} {r : List UInt8} (h : suiteStyle d = none) : findStyle (ch ' ' :: d :: r) = findStyle (d :: r) := by
  rw [findStyle, if_pos rfl]
  simp [h]

theorem findStyle_here {d : UInt8} {r : List UInt8} {s : ScalarStyle} (h : suiteStyle d = some s) :
    findStyle (ch ' ' :: d :: r) = some (s, r) := by
  rw [findStyle, if_pos rfl]
  simp [h]

theorem suiteStyle_styleChar {s : ScalarStyle} {c : UInt8} (h : styleChar s = some c) : suiteStyle c = some s := by
  cases s <;> cases h <;> decide

/-! ### Lines -/

theorem fgetsN_line {l r : List UInt8} (n : Nat) (h : (10 : UInt8) ∉ l) (hn : l.length < n) : fgetsN n (l ++ 10 :: r) = (l ++ [10], r) := by
  induction l generalizing n with
  | nil =>
    cases n with
    | zero => cases hn
    | succ n => simp [fgetsN]
  | cons c l ih =>
    cases n with
    | zero => cases hn
    | succ n =>
      have hc : c ≠ 10 := fun e => h (by simp [e])
      rw [List.cons_append, fgetsN, if_neg hc, ih n (fun e => h (by simp [e])) (by simpa using hn)]
      rfl

theorem fgetsN_long {l r : List UInt8} (n : Nat) (h : (10 : UInt8) ∉ l) (hn : n ≤ l.length) : (10 : UInt8) ∉ (fgetsN n (l ++ r)).1 := by
  induction l generalizing n with
  | nil =>
    have : n = 0 := by simpa using hn
    subst this
    simp [fgetsN]
  | cons c l ih =>
    cases n with
    | zero => simp [fgetsN]
    | succ n =>
      have hc : c ≠ 10 := fun e => h (by simp [e])
      rw [List.cons_append, fgetsN, if_neg hc]
      intro hm
      rcases List.mem_cons.mp hm with hm | hm
      · exact hc hm.symm
      · exact ih n (fun e => h (by simp [e])) (by simpa using hn) hm

theorem suiteLine_iff {l r : List UInt8} (h : (10 : UInt8) ∉ l) (h0 : (0 : UInt8) ∉ l) :
    suiteLine (l ++ 10 :: r) = if l.length < 1022 then .ok (some (l, r)) else .error .aborted := by
  unfold suiteLine
  rw [if_neg (by simp)]
  split
  · rename_i hl
    rw [fgetsN_line 1022 h hl]
    have : cstrB (l ++ [10]) = l ++ [10] := cstrB_id (by simpa using h0)
    simp only [this]
    rw [if_pos (by simp), takeWhile_until h]
  · rename_i hl
    simp only
    rw [if_neg]
    intro hm
    exact fgetsN_long (r := 10 :: r) 1022 h (by omega) (mem_takeWhile_both hm).2

/-! ### Properties of nodes -/

/-- Properties as bytes. -/
def bprops (a t : Option (List UInt8)) : List UInt8 :=
  (match a with
    | some a => ch ' ' :: ch '&' :: a
    | none => []) ++
  (match t with
    | some t => ch ' ' :: ch '<' :: (t ++ [ch '>'])
    | none => [])

/-- `CleanName` for the bytes. -/
def CleanB (x : List UInt8) : Prop := (0 : UInt8) ∉ x ∧ (10 : UInt8) ∉ x ∧ ch ' ' ∉ x ∧ ch '<' ∉ x ∧ ch '>' ∉ x

theorem cleanB {t : Text} (h : CleanName t) : CleanB (utf8s t) := by
  have hv : ∀ c ∈ t, c < 0x110000 := fun c hc => (h c hc).1
  refine ⟨fun hm => ?_, fun hm => ?_, fun hm => ?_, fun hm => ?_, fun hm => ?_⟩
  · exact (h 0 ((mem_utf8s_ascii (b := 0) (by decide) hv).mp hm)).2.1 rfl
  · exact (h 10 ((mem_utf8s_ascii (b := 10) (by decide) hv).mp hm)).2.2.1 rfl
  · exact (h 0x20 ((mem_utf8s_ascii (b := 0x20) (by decide) hv).mp hm)).2.2.2.1 rfl
  · exact (h 0x3C ((mem_utf8s_ascii (b := 0x3C) (by decide) hv).mp hm)).2.2.2.2.1 rfl
  · exact (h 0x3E ((mem_utf8s_ascii (b := 0x3E) (by decide) hv).mp hm)).2.2.2.2.2 rfl

/-- Clean properties. -/
def CleanBs (a t : Option (List UInt8)) : Prop := (∀ x, a = some x → CleanB x) ∧ ∀ x, t = some x → CleanB x

theorem cleanBs {a t : Option Text} (h : (∀ x, a = some x → CleanName x) ∧ ∀ x, t = some x → CleanName x) :
    CleanBs (a.map utf8s) (t.map utf8s) := by
  constructor
  · intro x hx
    cases a with
    | none => cases hx
    | some y => cases hx; exact cleanB (h.1 y rfl)
  · intro x hx
    cases t with
    | none => cases hx
    | some y => cases hx; exact cleanB (h.2 y rfl)

theorem printProps_eq {a t : Option Text} (h : CleanBs (a.map utf8s) (t.map utf8s)) :
    printProps a t = bprops (a.map utf8s) (t.map utf8s) := by
  unfold printProps bprops
  congr 1
  · cases a with
    | none => rfl
    | some x =>
      show asc [' ', '&'] ++ cstrB (utf8s x) = _
      rw [cstrB_id (h.1 _ rfl).1]; rfl
  · cases t with
    | none => rfl
    | some x =>
      show asc [' ', '<'] ++ cstrB (utf8s x) ++ asc ['>'] = _
      rw [cstrB_id (h.2 _ rfl).1]; rfl

/-- The end of a line, or its value. -/
def Tail (z : List UInt8) : Prop := z = [] ∨ ∃ y, z = ch ' ' :: y

theorem anchor_read {pre z : List UInt8} {a t : Option (List UInt8)} (hp : ch '&' ∉ pre) (hc : CleanBs a t) (hz : Tail z) :
    suiteAnchor (ch '&') (pre ++ (bprops a t ++ z)) = .ok a ↔
      (∀ x, a = some x → x.length < 256) ∧ (a = none → (∀ x, t = some x → ch '&' ∉ x) ∧ ch '&' ∉ z) := by
  cases a with
  | none =>
    rw [suiteAnchor_none]
    have e1 : ch '&' ≠ ch ' ' := by decide
    have e2 : ch '&' ≠ ch '<' := by decide
    have e3 : ch '&' ≠ ch '>' := by decide
    cases t with
    | none => simp [bprops, hp]
    | some t => simp [bprops, hp, e1, e2, e3]
  | some a =>
    have : pre ++ (bprops (some a) t ++ z) = (pre ++ [ch ' ']) ++ ch '&' :: (a ++ (bprops none t ++ z)) := by
      unfold bprops; simp
    rw [this, suiteAnchor_some (by simp [hp]; decide) (hc.1 a rfl).2.2.1]
    · simp
    · cases t with
      | none => exact hz
      | some t => exact .inr ⟨_, rfl⟩

theorem tag_read {pre z : List UInt8} {a t : Option (List UInt8)} (hp1 : ch '<' ∉ pre) (hp2 : ch '>' ∉ pre) (hc : CleanBs a t) :
    suiteTag (pre ++ (bprops a t ++ z)) = .ok t ↔
      (∀ x, t = some x → x.length < 256) ∧ (t = none → ¬ (ch '<' ∈ z ∧ ch '>' ∈ z)) := by
  have hA : ∀ b, b = ch '<' ∨ b = ch '>' → b ∉ bprops a none := by
    intro b hb
    cases a with
    | none => simp [bprops]
    | some a =>
      have := hc.1 a rfl
      unfold bprops
      rcases hb with rfl | rfl
      · simp [this.2.2.2.1]; decide
      · simp [this.2.2.2.2]; decide
  cases t with
  | none =>
    rw [suiteTag_none]
    have h1 := hA _ (.inl rfl)
    have h2 := hA _ (.inr rfl)
    simp [hp1, hp2, h1, h2]
  | some t =>
    have : pre ++ (bprops a (some t) ++ z) = (pre ++ (bprops a none ++ [ch ' '])) ++ ch '<' :: (t ++ ch '>' :: z) := by
      unfold bprops; simp
    rw [this, suiteTag_some (by simp [hp1, hA _ (.inl rfl)]; decide) (by simp [hp2, hA _ (.inr rfl)]; decide) (hc.2 t rfl).2.2.2.2]
    simp

theorem findStyle_props {a t : Option (List UInt8)} {c : UInt8} {z : List UInt8} {s : ScalarStyle} (hc : CleanBs a t)
    (hs : suiteStyle c = some s) : findStyle (bprops a t ++ ch ' ' :: c :: z) = some (s, z) := by
  have ht : findStyle (bprops none t ++ ch ' ' :: c :: z) = some (s, z) := by
    cases t with
    | none => exact findStyle_here hs
    | some t =>
      have : bprops none (some t) ++ ch ' ' :: c :: z = ch ' ' :: ch '<' :: (t ++ [ch '>'] ++ ch ' ' :: c :: z) := by simp [bprops]
      rw [this, findStyle_space (by decide)]
      have : ch '<' :: (t ++ [ch '>'] ++ ch ' ' :: c :: z) = (ch '<' :: (t ++ [ch '>'])) ++ ch ' ' :: c :: z := by simp
      rw [this, findStyle_skip (by simp [(hc.2 t rfl).2.2.1]; decide)]
      exact findStyle_here hs
  cases a with
  | none => exact ht
  | some a =>
    have : bprops (some a) t ++ ch ' ' :: c :: z = ch ' ' :: ch '&' :: (a ++ (bprops none t ++ ch ' ' :: c :: z)) := by simp [bprops]
    rw [this, findStyle_space (by decide)]
    have : ch '&' :: (a ++ (bprops none t ++ ch ' ' :: c :: z)) = (ch '&' :: a) ++ (bprops none t ++ ch ' ' :: c :: z) := by simp
    rw [this, findStyle_skip (by simp [(hc.1 a rfl).2.2.1]; decide)]
    exact ht

/-- Neither NUL nor line break. -/
theorem bprops_clean {a t : Option (List UInt8)} (hc : CleanBs a t) : (0 : UInt8) ∉ bprops a t ∧ (10 : UInt8) ∉ bprops a t := by
  unfold bprops
  constructor
  · refine fun h => ?_
    rcases List.mem_append.mp h with h | h
    · cases a with
      | none => cases h
      | some x =>
        simp only [List.mem_cons] at h
        rcases h with h | h | h
        · revert h; decide
        · revert h; decide
        · exact (hc.1 x rfl).1 h
    · cases t with
      | none => cases h
      | some x =>
        simp only [List.mem_cons, List.mem_append, List.not_mem_nil, or_false] at h
        rcases h with h | h | h | h
        · revert h; decide
        · revert h; decide
        · exact (hc.2 x rfl).1 h
        · revert h; decide
  · refine fun h => ?_
    rcases List.mem_append.mp h with h | h
    · cases a with
      | none => cases h
      | some x =>
        simp only [List.mem_cons] at h
        rcases h with h | h | h
        · revert h; decide
        · revert h; decide
        · exact (hc.1 x rfl).2.1 h
    · cases t with
      | none => cases h
      | some x =>
        simp only [List.mem_cons, List.mem_append, List.not_mem_nil, or_false] at h
        rcases h with h | h | h | h
        · revert h; decide
        · revert h; decide
        · exact (hc.2 x rfl).2.1 h
        · revert h; decide

/-! ### Events -/

theorem coll_pre {k b : List UInt8} (c : Prop) [Decidable c] {x : UInt8} (h1 : x ∉ k) (h2 : x ∉ b) : x ∉ k ++ (if c then b else []) := by
  split <;> simp [*]

theorem lineKind_append {k x : List UInt8} (h : k.length = 4) : lineKind (k ++ x) = lineKind k := by
  have e1 : (k ++ x).take 4 = k := by rw [← h]; exact List.take_left
  have e2 : k.take 4 = k := by rw [← h]; exact List.take_length
  unfold lineKind
  rw [e1, e2]

/-- Both properties are read right exactly if they fit. -/
theorem props_iff {pre : List UInt8} {a t : Option Text} (h1 : ch '&' ∉ pre) (h2 : ch '<' ∉ pre) (h3 : ch '>' ∉ pre)
    (hc : (∀ x, a = some x → CleanName x) ∧ ∀ x, t = some x → CleanName x) :
    (suiteAnchor (ch '&') (pre ++ bprops (a.map utf8s) (t.map utf8s)) = .ok (a.map utf8s) ∧
      suiteTag (pre ++ bprops (a.map utf8s) (t.map utf8s)) = .ok (t.map utf8s)) ↔ PropsFit a t := by
  have hb := cleanBs hc
  have e1 := anchor_read (z := []) h1 hb (.inl rfl)
  have e2 := tag_read (z := []) h2 h3 hb
  rw [List.append_nil] at e1 e2
  rw [e1, e2]
  unfold PropsFit
  have amp : ∀ x, t = some x → (ch '&' ∈ utf8s x ↔ 0x26 ∈ x) := fun x hx =>
    mem_utf8s_ascii (b := 0x26) (by decide) fun c hc' => (hc.2 x hx c hc').1
  cases a <;> cases t <;> simp_all
  exact And.comm

theorem do2_iff {α β γ : Type} {A : Except SuiteFail α} {B : Except SuiteFail β} {f : α → β → γ} {a : α} {b : β}
    (hf : ∀ x y, f x y = f a b → x = a ∧ y = b) :
    (do let x ← A; let y ← B; return f x y) = Except.ok (f a b) ↔ A = .ok a ∧ B = .ok b := by
  cases A with
  | error e => simp [bind, Except.bind]
  | ok x =>
    cases B with
    | error e => simp [bind, Except.bind]
    | ok y =>
      simp only [bind, Except.bind, pure, Except.pure, Except.ok.injEq]
      constructor
      · exact hf x y
      · rintro ⟨rfl, rfl⟩; rfl

theorem take_brackets {k b x : List UInt8} {p r : FlowOpt} {s : CollStyle} (hk : k.length = 4) (hb : b.length = 2) (hx : (x.drop 1).take 2 ≠ b) :
    readFlow r b (k ++ ((if printFlow p s then ch ' ' :: b else []) ++ x)) = flowStyle p r s := by
  have e1 : ∀ y : List UInt8, (k ++ y).drop 5 = y.drop 1 := by
    intro y
    rw [show (5 : Nat) = k.length + 1 by omega, ← List.drop_drop, List.drop_left]
  cases r with
  | off => rfl
  | on => rfl
  | keep =>
    unfold readFlow
    simp only
    rw [e1]
    have e2 : ((ch ' ' :: b ++ x).drop 1).take 2 = b := by
      rw [List.cons_append, List.drop_succ_cons, List.drop_zero, ← hb]; exact List.take_left
    cases p with
    | off => simp only [printFlow, Bool.false_eq_true, if_false, List.nil_append, flowStyle]; rw [if_neg hx]
    | on => simp only [printFlow, if_true, flowStyle]; rw [if_pos e2]
    | keep =>
      cases s with
      | flow => simp only [printFlow, decide_true, if_true, flowStyle]; rw [if_pos e2]
      | any => simp [printFlow, flowStyle]; simpa using hx
      | block => simp [printFlow, flowStyle]; simpa using hx

theorem bprops_brackets {a t : Option (List UInt8)} {c d : UInt8} (h1 : c ≠ ch '&') (h2 : c ≠ ch '<') : ((bprops a t).drop 1).take 2 ≠ [c, d] := by
  cases a with
  | none =>
    cases t with
    | none => simp [bprops]
    | some t =>
      simp only [bprops, List.nil_append, List.drop_succ_cons, List.drop_zero, List.take_succ_cons]
      intro h
      exact h2 (List.cons.inj h).1.symm
  | some a =>
    simp only [bprops, List.cons_append, List.drop_succ_cons, List.drop_zero, List.take_succ_cons]
    intro h
    exact h1 (List.cons.inj h).1.symm

/-- Collections. -/
theorem coll_iff {k b : List UInt8} {p : FlowOpt} {s : CollStyle} {a t : Option Text} (hk : ∀ x ∈ k ++ b, x ≠ ch '&' ∧ x ≠ ch '<' ∧ x ≠ ch '>')
    (hc : (∀ x, a = some x → CleanName x) ∧ ∀ x, t = some x → CleanName x) {f : Option (List UInt8) → Option (List UInt8) → SuiteCall}
    (hf : ∀ x y, f x y = f (a.map utf8s) (t.map utf8s) → x = a.map utf8s ∧ y = t.map utf8s) :
    (do let x ← suiteAnchor (ch '&') (k ++ ((if printFlow p s then b else []) ++ bprops (a.map utf8s) (t.map utf8s)))
        let y ← suiteTag (k ++ ((if printFlow p s then b else []) ++ bprops (a.map utf8s) (t.map utf8s)))
        return f x y) = Except.ok (f (a.map utf8s) (t.map utf8s)) ↔ PropsFit a t := by
  rw [do2_iff hf]
  rw [← List.append_assoc]
  refine props_iff ?_ ?_ ?_ hc
  · exact coll_pre _ (fun h => (hk _ (by simp [h])).1 rfl) (fun h => (hk _ (by simp [h])).1 rfl)
  · exact coll_pre _ (fun h => (hk _ (by simp [h])).2.1 rfl) (fun h => (hk _ (by simp [h])).2.1 rfl)
  · exact coll_pre _ (fun h => (hk _ (by simp [h])).2.2 rfl) (fun h => (hk _ (by simp [h])).2.2 rfl)

theorem utf8_ne_nil (c : Nat) : 1 ≤ (utf8 c).length := by
  unfold utf8
  repeat' split
  all_goals simp

/-- Scalars. -/
theorem scalar_iff {a t : Option Text} {v : Text} {s : ScalarStyle} {c : UInt8} {line : List UInt8} (hs : styleChar s = some c)
    (hc : (∀ x, a = some x → CleanName x) ∧ ∀ x, t = some x → CleanName x) (hv : ∀ c ∈ v, c < 0x110000)
    (hline : line = asc ['=', 'V', 'A', 'L'] ++ (bprops (a.map utf8s) (t.map utf8s) ++ ch ' ' :: c :: printEscaped (utf8s v)))
    (hl : line.length < 1022) :
    (do let (v, s) ← suiteValue line
        let t ← suiteTag line
        let a ← suiteAnchor (ch '&') line
        return SuiteCall.scalar a t (cstrB v) t.isNone s) = Except.ok (SuiteCall.scalar (a.map utf8s) (t.map utf8s) (utf8s v) t.isNone s) ↔
      PropsFit a t ∧ (a = none → 0x26 ∉ v) ∧ (t = none → ¬ (0x3C ∈ v ∧ (0x3E ∈ v ∨ s = .folded))) ∧ 0 ∉ v := by
  have hb := cleanBs hc
  have hval : suiteValue line = .ok (utf8s v, s) := by
    unfold suiteValue
    have : line.drop 4 = bprops (a.map utf8s) (t.map utf8s) ++ ch ' ' :: c :: printEscaped (utf8s v) := by rw [hline]; rfl
    rw [this, findStyle_props hb (suiteStyle_styleChar hs)]
    simp only
    have hlen := length_printEscaped (utf8s v)
    rw [unescape_printed (by rw [hline] at hl; simp at hl; simp; omega)]
    rfl
  rw [hval]
  have e1 := anchor_read (pre := asc ['=', 'V', 'A', 'L']) (z := ch ' ' :: c :: printEscaped (utf8s v)) (by decide) hb (.inr ⟨_, rfl⟩)
  have e2 := tag_read (pre := asc ['=', 'V', 'A', 'L']) (z := ch ' ' :: c :: printEscaped (utf8s v)) (by decide) (by decide) hb
  rw [← hline] at e1 e2
  have step : (do let (v, s) ← (Except.ok (utf8s v, s) : Except SuiteFail (List UInt8 × ScalarStyle))
                  let t ← suiteTag line
                  let a ← suiteAnchor (ch '&') line
                  return SuiteCall.scalar a t (cstrB v) t.isNone s) = Except.ok (SuiteCall.scalar (a.map utf8s) (t.map utf8s) (utf8s v) t.isNone s) ↔
      suiteTag line = .ok (t.map utf8s) ∧ suiteAnchor (ch '&') line = .ok (a.map utf8s) ∧ cstrB (utf8s v) = utf8s v := by
    cases suiteTag line with
    | error e => simp [bind, Except.bind]
    | ok y =>
      cases suiteAnchor (ch '&') line with
      | error e => simp [bind, Except.bind]
      | ok x =>
        simp only [bind, Except.bind, pure, Except.pure, Except.ok.injEq, SuiteCall.scalar.injEq]
        constructor
        · rintro ⟨h1, h2, h3, _⟩; exact ⟨h2, h1, h3⟩
        · rintro ⟨rfl, rfl, h3⟩; exact ⟨rfl, rfl, h3, by simp⟩
  rw [step, e1, e2, cstrB_eq_iff]
  have m0 : (0 : UInt8) ∈ utf8s v ↔ 0 ∈ v := mem_utf8s_ascii (b := 0) (by decide) hv
  have amp : ch '&' ∈ printEscaped (utf8s v) ↔ 0x26 ∈ v :=
    (mem_printEscaped (by decide) (by decide)).trans (mem_utf8s_ascii (b := 0x26) (by decide) hv)
  have lt : ch '<' ∈ printEscaped (utf8s v) ↔ 0x3C ∈ v :=
    (mem_printEscaped (by decide) (by decide)).trans (mem_utf8s_ascii (b := 0x3C) (by decide) hv)
  have gt : ch '>' ∈ printEscaped (utf8s v) ↔ 0x3E ∈ v :=
    (mem_printEscaped (by decide) (by decide)).trans (mem_utf8s_ascii (b := 0x3E) (by decide) hv)
  have ampt : ∀ x, t = some x → (ch '&' ∈ utf8s x ↔ 0x26 ∈ x) := fun x hx =>
    mem_utf8s_ascii (b := 0x26) (by decide) fun c hc' => (hc.2 x hx c hc').1
  have z1 : ch '&' ∈ ch ' ' :: c :: printEscaped (utf8s v) ↔ 0x26 ∈ v := by
    have d1 : ch '&' ≠ ch ' ' := by decide
    have d2 : ch '&' ≠ c := by rintro rfl; revert hs; cases s <;> decide
    simp [d1, d2, amp]
  have z2 : ch '<' ∈ ch ' ' :: c :: printEscaped (utf8s v) ↔ 0x3C ∈ v := by
    have d1 : ch '<' ≠ ch ' ' := by decide
    have d2 : ch '<' ≠ c := by rintro rfl; revert hs; cases s <;> decide
    simp [d1, d2, lt]
  have z3 : ch '>' ∈ ch ' ' :: c :: printEscaped (utf8s v) ↔ (0x3E ∈ v ∨ s = .folded) := by
    have d1 : ch '>' ≠ ch ' ' := by decide
    have d2 : ch '>' = c ↔ s = .folded := by
      cases s <;> simp [styleChar] at hs <;> subst hs <;> decide
    simp only [List.mem_cons, d1, false_or, d2, gt]
    exact Or.comm
  rw [z1, z2, z3, m0]
  unfold PropsFit
  clear step e1 e2 hval amp lt gt z1 z2 z3 m0 hline hl hb hs hv
  cases a with
  | none =>
    cases t with
    | none => simp; tauto
    | some t =>
      have := ampt t rfl
      simp [this]; tauto
  | some a => cases t <;> simp <;> tauto

theorem printed_clean {p : FlowOpt} {e : EvData} {line : List UInt8} (he : CleanEvent e) (h : printEvent p e = some line) :
    (0 : UInt8) ∉ line ∧ (10 : UInt8) ∉ line := by
  have coll : ∀ (k b : List UInt8) (c : Prop) [Decidable c] (a t : Option Text),
      ((∀ x, a = some x → CleanName x) ∧ ∀ x, t = some x → CleanName x) → (∀ x ∈ k ++ b, x ≠ 0 ∧ x ≠ 10) →
      (0 : UInt8) ∉ k ++ ((if c then b else []) ++ printProps a t) ∧ (10 : UInt8) ∉ k ++ ((if c then b else []) ++ printProps a t) := by
    intro k b c _ a t hc hk
    have hb := cleanBs hc
    rw [printProps_eq hb, ← List.append_assoc]
    have := bprops_clean hb
    constructor
    · intro h
      rcases List.mem_append.mp h with h | h
      · exact coll_pre c (fun h => (hk _ (by simp [h])).1 rfl) (fun h => (hk _ (by simp [h])).1 rfl) h
      · exact this.1 h
    · intro h
      rcases List.mem_append.mp h with h | h
      · exact coll_pre c (fun h => (hk _ (by simp [h])).2 rfl) (fun h => (hk _ (by simp [h])).2 rfl) h
      · exact this.2 h
  cases e with
  | streamStart _ => cases h; decide
  | streamEnd => cases h; decide
  | documentStart _ _ i => cases h; cases i <;> decide
  | documentEnd i => cases h; cases i <;> decide
  | mappingEnd => cases h; decide
  | sequenceEnd => cases h; decide
  | mappingStart a t i s => cases h; exact coll _ _ _ a t he (by decide)
  | sequenceStart a t i s => cases h; exact coll _ _ _ a t he (by decide)
  | «alias» a =>
    cases h
    have hb := cleanB he
    rw [cstrB_id hb.1, ← List.append_assoc]
    constructor
    · intro h
      rcases List.mem_append.mp h with h | h
      · revert h; decide
      · exact hb.1 h
    · intro h
      rcases List.mem_append.mp h with h | h
      · revert h; decide
      · exact hb.2.1 h
  | scalar a t v i j s =>
    simp only [printEvent] at h
    cases hs : styleChar s with
    | none => rw [hs] at h; cases h
    | some c =>
      rw [hs] at h
      cases h
      have hb := cleanBs he.1
      have hp := bprops_clean hb
      rw [printProps_eq hb]
      constructor
      · intro h
        rcases List.mem_append.mp h with h | h
        · revert h; decide
        · rcases List.mem_append.mp h with h | h
          · exact hp.1 h
          · rcases List.mem_cons.mp h with h | h
            · revert h; decide
            · rcases List.mem_cons.mp h with h | h
              · subst h; revert hs; cases s <;> decide
              · exact not_mem_printEscaped (by decide) (by decide) h
      · intro h
        rcases List.mem_append.mp h with h | h
        · revert h; decide
        · rcases List.mem_append.mp h with h | h
          · exact hp.2 h
          · rcases List.mem_cons.mp h with h | h
            · revert h; decide
            · rcases List.mem_cons.mp h with h | h
              · subst h; revert hs; cases s <;> decide
              · exact not_mem_printEscaped (by decide) (by decide) h

/-- A line that is not too long is read right exactly if the event says so. -/
theorem suiteCall_iff {p r : FlowOpt} {e : EvData} {line : List UInt8} (he : CleanEvent e) (h : printEvent p e = some line)
    (hl : line.length < 1022) : suiteCall r line = .ok (rightCall p r e) ↔ ReadsBack e := by
  cases e with
  | streamStart _ => cases h; exact iff_of_true (by cases r <;> rfl) trivial
  | streamEnd => cases h; exact iff_of_true (by cases r <;> rfl) trivial
  | documentStart _ _ i => cases h; exact iff_of_true (by cases r <;> cases i <;> rfl) trivial
  | documentEnd i => cases h; exact iff_of_true (by cases r <;> cases i <;> rfl) trivial
  | mappingEnd => cases h; exact iff_of_true (by cases r <;> rfl) trivial
  | sequenceEnd => cases h; exact iff_of_true (by cases r <;> rfl) trivial
  | mappingStart a t i s =>
    cases h
    have hb := cleanBs he
    rw [printProps_eq hb]
    unfold suiteCall
    rw [lineKind_append (k := asc ['+', 'M', 'A', 'P']) rfl, show lineKind (asc ['+', 'M', 'A', 'P']) = some .mappingStart by decide]
    simp only
    rw [show asc [' ', '{', '}'] = ch ' ' :: asc ['{', '}'] from rfl,
      take_brackets (k := asc ['+', 'M', 'A', 'P']) (b := asc ['{', '}']) rfl rfl (bprops_brackets (by decide) (by decide))]
    exact coll_iff (by decide) he (f := fun x y => .mappingStart x y (flowStyle p r s)) (fun x y h => by cases h; exact ⟨rfl, rfl⟩)
  | sequenceStart a t i s =>
    cases h
    have hb := cleanBs he
    rw [printProps_eq hb]
    unfold suiteCall
    rw [lineKind_append (k := asc ['+', 'S', 'E', 'Q']) rfl, show lineKind (asc ['+', 'S', 'E', 'Q']) = some .sequenceStart by decide]
    simp only
    rw [show asc [' ', '[', ']'] = ch ' ' :: asc ['[', ']'] from rfl,
      take_brackets (k := asc ['+', 'S', 'E', 'Q']) (b := asc ['[', ']']) rfl rfl (bprops_brackets (by decide) (by decide))]
    exact coll_iff (by decide) he (f := fun x y => .sequenceStart x y (flowStyle p r s)) (fun x y h => by cases h; exact ⟨rfl, rfl⟩)
  | «alias» a =>
    cases h
    have hb := cleanB he
    rw [cstrB_id hb.1]
    unfold suiteCall
    rw [lineKind_append (k := asc ['=', 'A', 'L', 'I']) rfl, show lineKind (asc ['=', 'A', 'L', 'I']) = some .alias by decide]
    simp only
    have e1 : asc ['=', 'A', 'L', 'I'] ++ (asc [' ', '*'] ++ utf8s a) = asc ['=', 'A', 'L', 'I', ' '] ++ ch '*' :: (utf8s a ++ []) := by
      simp [asc]
    have key := suiteAnchor_some (s := ch '*') (x := asc ['=', 'A', 'L', 'I', ' ']) (a := utf8s a) (y := []) (by decide) hb.2.2.1 (.inl rfl)
    rw [e1]
    show (do let a ← _; return SuiteCall.alias a) = Except.ok (SuiteCall.alias (some (utf8s a))) ↔ (utf8s a).length < 256
    rw [← key]
    cases suiteAnchor (ch '*') (asc ['=', 'A', 'L', 'I', ' '] ++ ch '*' :: (utf8s a ++ [])) with
    | error e => simp [bind, Except.bind]
    | ok x => simp [bind, Except.bind, pure, Except.pure]
  | scalar a t v i j s =>
    simp only [printEvent] at h
    cases hs : styleChar s with
    | none => rw [hs] at h; cases h
    | some c =>
      rw [hs] at h
      cases h
      have hb := cleanBs he.1
      rw [printProps_eq hb] at hl ⊢
      unfold suiteCall
      rw [lineKind_append (k := asc ['=', 'V', 'A', 'L']) rfl, show lineKind (asc ['=', 'V', 'A', 'L']) = some .scalar by decide]
      exact scalar_iff hs he.1 he.2 rfl hl

end LibYaml
