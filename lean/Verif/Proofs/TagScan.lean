import Verif.Proofs.BlockScan
import Verif.Proofs.Octets

/-!
# Scanning what the emitter writes for a tag

`tagText v` is what the emitter writes for the text `v`: the characters of tags as they are, all others as percent escapes of their
bytes.
-/

namespace LibYaml

open Spec

/-- The percent escape of a byte. -/
def pct (b : UInt8) : Text := [37, hexChar (b.toNat >>> 4), hexChar (b.toNat &&& 0x0F)]

/-- What is written for a character of a tag. -/
def tagPiece (c : Nat) : Text := if tagChar c = true then [c] else (octets c).flatMap pct

/-- What is written for a tag. -/
def tagText (v : Text) : Text := v.flatMap tagPiece

/-- `m` after `k` characters that are not line breaks. -/
def Mark.adv (m : Mark) (k : Nat) : Mark := { m with index := m.index + k, column := m.column + k }

theorem Mark.adv_adv (m : Mark) (a b : Nat) : (m.adv a).adv b = m.adv (a + b) := by
  unfold Mark.adv
  simp [Nat.add_assoc]

theorem Mark.adv_zero (m : Mark) : m.adv 0 = m := rfl

variable {m : Mark} {r : Text}

theorem pct_table : ∀ n : Fin 256, isHex (hexChar (n.val >>> 4)) = true ∧ isHex (hexChar (n.val &&& 15)) = true ∧ hexChar (n.val >>> 4) < 0x80 ∧
    hexChar (n.val &&& 15) < 0x80 ∧ asHex (hexChar (n.val >>> 4)) * 16 + asHex (hexChar (n.val &&& 15)) = n.val := by
  decide +kernel

theorem pct_facts (b : UInt8) : isHex (hexChar (b.toNat >>> 4)) = true ∧ isHex (hexChar (b.toNat &&& 15)) = true ∧ hexChar (b.toNat >>> 4) < 0x80 ∧
    hexChar (b.toNat &&& 15) < 0x80 ∧ asHex (hexChar (b.toNat >>> 4)) * 16 + asHex (hexChar (b.toNat &&& 15)) = b.toNat :=
  pct_table ⟨b.toNat, b.toNat_lt⟩

theorem lw_peek2 {a b c : Nat} {Q : Nat → Mark → Text → Prop} (ha : a < 0x80) (hb : b < 0x80) :
    lw (peekC 2) Q m (a :: b :: c :: r) ↔ Q c m (a :: b :: c :: r) :=
  lw_peekAt (pre := [a, b]) rfl (by simp [ha, hb])

/-- One escaped octet. -/
theorem lw_scanOctet {d : Bool} {start : Mark} {b : UInt8} {Q : Nat → Mark → Text → Prop} :
    lw (scanOctet d start) Q m (pct b ++ r) ↔ Q b.toNat m (pct b ++ r) := by
  obtain ⟨h1, h2, h3, h4, h5⟩ := pct_facts b
  unfold scanOctet
  unfold pct
  simp only [List.cons_append, List.nil_append]
  rw [lw_bind, lw_cache3, lw_bind, lw_peek0, lw_ite, if_pos (by decide), lw_bind, lw_peek1 (by decide), lw_ite, if_pos h1, lw_bind,
    lw_peek2 (by decide) h3, lw_ite, if_pos h2, lw_pure, h5]

theorem lw_skip3 {α : Type} {k : Lex α} {b : UInt8} {Q : α → Mark → Text → Prop} :
    lw (do skipC; skipC; skipC; k) Q m (pct b ++ r) ↔ lw k Q (m.adv 3) r := by
  unfold pct
  simp only [List.cons_append, List.nil_append]
  rw [lw_bind, lw_skipC, lw_bind, lw_skipC, lw_bind, lw_skipC]
  rfl

theorem lw_scanTrailing {d : Bool} {start : Mark} {bs : List UInt8} {os : List Nat} (hb : ∀ b ∈ bs, 0x80 ≤ b.toNat ∧ b.toNat < 0xC0)
    {Q : List Nat → Mark → Text → Prop} (hQ : Q (os ++ bs.map UInt8.toNat) (m.adv (3 * bs.length)) r) :
    lw (scanTrailing d start bs.length os) Q m (bs.flatMap pct ++ r) := by
  induction bs generalizing os m with
  | nil => simpa [scanTrailing, Mark.adv_zero, lw_pure] using hQ
  | cons b bs ih =>
    show lw (scanTrailing d start (bs.length + 1) os) Q m _
    unfold scanTrailing
    rw [List.flatMap_cons, List.append_assoc, lw_bind, lw_scanOctet, lw_ite, if_pos (hb b List.mem_cons_self), lw_skip3]
    refine ih (fun x hx => hb x (List.mem_cons_of_mem _ hx)) ?_
    rw [Mark.adv_adv]
    have : 3 + 3 * bs.length = 3 * (b :: bs).length := by simp only [List.length_cons]; omega
    rw [this]
    simpa using hQ

/-- The bytes of a character: the first announces their number, the others are trailing bytes, and together they denote the character. -/
theorem utf8_octets {c : Nat} (h : c < 0x200000) : ∃ b bs, utf8 c = b :: bs ∧ octetWidth b.toNat = bs.length + 1 ∧
    (∀ x ∈ bs, 0x80 ≤ x.toNat ∧ x.toNat < 0xC0) ∧ octetsChar (b.toNat :: bs.map UInt8.toNat) = c := by
  have tn : ∀ n, n < 256 → (UInt8.ofNat n).toNat = n := fun n hn => by simp [Nat.mod_eq_of_lt hn]
  unfold utf8
  by_cases c1 : c < 0x80
  · rw [if_pos c1]
    refine ⟨_, _, rfl, ?_, by simp, ?_⟩
    · rw [tn _ (by omega)]; unfold octetWidth; rw [if_pos c1]; rfl
    · rw [tn _ (by omega)]; rfl
  rw [if_neg c1]
  by_cases c2 : c < 0x800
  · rw [if_pos c2]
    refine ⟨_, _, rfl, ?_, ?_, ?_⟩
    · rw [tn _ (by omega)]; unfold octetWidth; rw [if_neg (by omega), if_pos (by omega)]; rfl
    · simp only [List.mem_cons, List.not_mem_nil, or_false, forall_eq]
      rw [tn _ (by omega)]; omega
    · simp only [List.map_cons, List.map_nil]
      rw [tn _ (by omega), tn _ (by omega)]
      unfold octetsChar
      dsimp only
      rw [if_pos (by omega)]
      omega
  rw [if_neg c2]
  by_cases c3 : c < 0x10000
  · rw [if_pos c3]
    refine ⟨_, _, rfl, ?_, ?_, ?_⟩
    · rw [tn _ (by omega)]; unfold octetWidth; rw [if_neg (by omega), if_neg (by omega), if_pos (by omega)]; rfl
    · simp only [List.mem_cons, List.not_mem_nil, or_false, forall_eq_or_imp, forall_eq]
      rw [tn _ (by omega), tn _ (by omega)]; omega
    · simp only [List.map_cons, List.map_nil]
      rw [tn _ (by omega), tn _ (by omega), tn _ (by omega)]
      unfold octetsChar
      dsimp only
      rw [if_pos (by omega)]
      omega
  · rw [if_neg c3]
    refine ⟨_, _, rfl, ?_, ?_, ?_⟩
    · rw [tn _ (by omega)]; unfold octetWidth; rw [if_neg (by omega), if_neg (by omega), if_neg (by omega), if_pos (by omega)]; rfl
    · simp only [List.mem_cons, List.not_mem_nil, or_false, forall_eq_or_imp, forall_eq]
      rw [tn _ (by omega), tn _ (by omega), tn _ (by omega)]; omega
    · simp only [List.map_cons, List.map_nil]
      rw [tn _ (by omega), tn _ (by omega), tn _ (by omega), tn _ (by omega)]
      unfold octetsChar
      dsimp only
      rw [if_pos (by omega)]
      omega

/-- The same for all that can be stored. -/
theorem storable_octets {c : Nat} (h : Storable c) : ∃ b bs, octets c = b :: bs ∧ octetWidth b.toNat = bs.length + 1 ∧
    (∀ x ∈ bs, 0x80 ≤ x.toNat ∧ x.toNat < 0xC0) ∧ octetsChar (b.toNat :: bs.map UInt8.toNat) = c := by
  by_cases hc : c < 0x200000
  · rw [octets_utf8 hc]
    exact utf8_octets hc
  obtain ⟨h1, h2⟩ : c < 0x100200000 ∧ Overlong (octets c) := h.resolve_left hc
  have tn : ∀ n, n < 256 → (UInt8.ofNat n).toNat = n := fun n hn => by simp [Nat.mod_eq_of_lt hn]
  obtain ⟨n, rfl⟩ : ∃ n, c = 0x200000 + n := ⟨c - 0x200000, by omega⟩
  have e : octets (0x200000 + n) = rawOctets n := by unfold octets; rw [if_neg hc, Nat.add_sub_cancel_left]
  have hn : n < 0x100000000 := by omega
  clear hc h h1
  rw [e] at h2 ⊢
  clear e
  unfold rawOctets at h2 ⊢
  by_cases c1 : 0x1000000 ≤ n
  · rw [if_pos c1, if_pos (by omega)] at h2 ⊢
    simp only [List.nil_append, List.cons_append, Overlong, Trails] at h2 ⊢
    obtain ⟨g1, ⟨g2, g3⟩, g4, ⟨g5, g6⟩, g7, g8⟩ := h2
    have g1 := congrArg UInt8.toNat g1
    rw [tn _ (by omega)] at g1 g2 g3 g4 g5 g6 g7 g8
    simp only [UInt8.reduceToNat] at g1
    refine ⟨_, _, rfl, ?_, ?_, ?_⟩
    · rw [tn _ (by omega), g1]; rfl
    · simp only [List.mem_cons, List.not_mem_nil, or_false, forall_eq_or_imp, forall_eq]
      rw [tn _ (by omega), tn _ (by omega), tn _ (by omega)]; omega
    · simp only [List.map_cons, List.map_nil]
      rw [tn _ (by omega), tn _ (by omega), tn _ (by omega), tn _ (by omega), g1]
      have e0 : n = ((0xF0 * 0x100 + n / 0x10000 % 0x100) * 0x100 + n / 0x100 % 0x100) * 0x100 + n % 0x100 := by omega
      generalize n / 0x10000 % 0x100 = x at *
      generalize n / 0x100 % 0x100 = y at *
      generalize n % 0x100 = z at *
      unfold octetsChar
      dsimp only
      rw [if_neg (by omega)]
      omega
  · rw [if_neg c1] at h2 ⊢
    by_cases c2 : 0x10000 ≤ n
    · rw [if_pos c2] at h2 ⊢
      simp only [List.nil_append, List.cons_append, Overlong, Trails] at h2 ⊢
      obtain ⟨g1, ⟨g2, g3⟩, g4, g5, g6⟩ := h2
      have g1 := congrArg UInt8.toNat g1
      rw [tn _ (by omega)] at g1 g2 g3 g4 g5 g6
      simp only [UInt8.reduceToNat] at g1
      refine ⟨_, _, rfl, ?_, ?_, ?_⟩
      · rw [tn _ (by omega), g1]; rfl
      · simp only [List.mem_cons, List.not_mem_nil, or_false, forall_eq_or_imp, forall_eq]
        rw [tn _ (by omega), tn _ (by omega)]; omega
      · simp only [List.map_cons, List.map_nil]
        rw [tn _ (by omega), tn _ (by omega), tn _ (by omega)]
        unfold octetsChar
        dsimp only
        rw [if_neg (by omega)]
        omega
    · rw [if_neg c2] at h2 ⊢
      simp only [List.nil_append, Overlong, Trails] at h2
      obtain ⟨g1, g2, g3⟩ := h2
      rw [tn _ (by omega)] at g2 g3
      have g1 : n / 0x100 % 0x100 = 0xC0 ∨ n / 0x100 % 0x100 = 0xC1 := by
        rcases g1 with g1 | g1
        · have g1 := congrArg UInt8.toNat g1
          rw [tn _ (by omega)] at g1
          exact .inl g1
        · have g1 := congrArg UInt8.toNat g1
          rw [tn _ (by omega)] at g1
          exact .inr g1
      refine ⟨_, _, rfl, ?_, ?_, ?_⟩
      · rw [tn _ (by omega)]; unfold octetWidth; rw [if_neg (by omega), if_pos (by omega)]; rfl
      · simp only [List.mem_cons, List.not_mem_nil, or_false, forall_eq]
        rw [tn _ (by omega)]; omega
      · simp only [List.map_cons, List.map_nil]
        rw [tn _ (by omega), tn _ (by omega)]
        unfold octetsChar
        dsimp only
        rw [if_neg (by omega)]
        omega

/-- The escapes of a character. -/
theorem lw_scanUriEscapes {d : Bool} {start : Mark} {c : Nat} (h : Storable c) {Q : Nat → Mark → Text → Prop}
    (hQ : Q c (m.adv ((octets c).flatMap pct).length) r) : lw (scanUriEscapes d start) Q m ((octets c).flatMap pct ++ r) := by
  obtain ⟨b, bs, h1, h2, h3, h4⟩ := storable_octets h
  rw [h1] at hQ ⊢
  unfold scanUriEscapes
  rw [List.flatMap_cons, List.append_assoc, lw_bind, lw_scanOctet, lw_ite, if_neg (by omega), lw_skip3, lw_bind, h2, Nat.add_sub_cancel]
  refine lw_scanTrailing h3 ?_
  rw [lw_pure, Mark.adv_adv]
  have hl : ((b :: bs).flatMap pct).length = 3 + 3 * bs.length := by
    have : ∀ l : List UInt8, (l.flatMap pct).length = 3 * l.length := by
      intro l
      induction l with
      | nil => rfl
      | cons x l ih => rw [List.flatMap_cons, List.length_append, ih]; simp only [List.length_cons, pct, List.length_nil]; omega
    rw [this]; simp only [List.length_cons]; omega
  rw [hl] at hQ
  show Q (octetsChar (b.toNat :: bs.map UInt8.toNat)) _ _
  rw [h4]
  exact hQ

theorem octets_pct_head (c : Nat) : ∃ t, (octets c).flatMap pct = 37 :: t := by
  cases h : octets c with
  | nil => exact absurd h (octets_ne_nil c)
  | cons b bs => exact ⟨_, rfl⟩

/-- The characters that the emitter does not escape but the scanner accepts only in prefixes and verbatim tags. -/
def flowInd (c : Nat) : Prop := c = 44 ∨ c = 91 ∨ c = 93

/-- What the scanner accepts as it is. -/
theorem isUri_of_tagChar {u : Bool} {c : Nat} (h : tagChar c = true) (hu : u = true ∨ ¬ flowInd c) : isUri u c = true ∧ c ≠ 37 := by
  unfold tagChar at h
  unfold isUri
  unfold flowInd at hu
  simp only [Bool.or_eq_true, Bool.and_eq_true, beq_iff_eq] at h ⊢
  refine ⟨?_, ?_⟩
  · rcases hu with rfl | hu
    · simp only [true_and] at h ⊢
      unfold isAlpha at *
      simp only [Bool.or_eq_true, Bool.and_eq_true, decide_eq_true_eq, beq_iff_eq] at *
      omega
    · unfold isAlpha at *
      simp only [Bool.or_eq_true, Bool.and_eq_true, decide_eq_true_eq, beq_iff_eq] at *
      omega
  · rintro rfl
    revert h
    decide

/-- The text of a tag is read character by character. -/
theorem lw_scanUriLoop {u d : Bool} {start : Mark} {n : Nat} {s v : Text} (hv : ∀ c ∈ v, Storable c) (hu : u = true ∨ ∀ c ∈ v, ¬ flowInd c)
    (hr : ∃ c t, r = c :: t ∧ isUri u c = false) (hn : (tagText v).length < n) {Q : Text → Mark → Text → Prop}
    (hQ : Q (s ++ v) (m.adv (tagText v).length) r) : lw (scanUriLoop u d start n s) Q m (tagText v ++ r) := by
  induction v generalizing s m n with
  | nil =>
    obtain ⟨c, t, rfl, hc⟩ := hr
    cases n with
    | zero => exact absurd hn (Nat.not_lt_zero _)
    | succ n =>
      unfold scanUriLoop
      show lw _ Q m (c :: t)
      rw [lw_bind, lw_peek0, lw_ite, if_neg (by rw [hc]; decide), lw_pure]
      simpa [Mark.adv_zero, tagText] using hQ
  | cons c v ih =>
    cases n with
    | zero => exact absurd hn (Nat.not_lt_zero _)
    | succ n =>
      have hv1 := hv c List.mem_cons_self
      have hv2 : ∀ c ∈ v, Storable c := fun x hx => hv x (List.mem_cons_of_mem _ hx)
      have hu2 : u = true ∨ ∀ c ∈ v, ¬ flowInd c := hu.imp_right fun h x hx => h x (List.mem_cons_of_mem _ hx)
      have e : tagText (c :: v) = tagPiece c ++ tagText v := List.flatMap_cons
      rw [e] at hn hQ ⊢
      rw [List.append_assoc]
      unfold scanUriLoop
      unfold tagPiece at *
      by_cases ht : tagChar c = true
      · rw [if_pos ht] at hn hQ ⊢
        obtain ⟨h1, h2⟩ := isUri_of_tagChar (u := u) ht (hu.imp_right fun h => h c List.mem_cons_self)
        show lw _ Q m (c :: _)
        rw [lw_bind, lw_peek0, lw_ite, if_pos h1, lw_ite, if_neg (by simpa using h2), lw_bind, lw_readC, lw_bind, lw_cache1]
        refine ih hv2 hu2 (by simp only [List.length_append, List.length_cons, List.length_nil] at hn; omega) ?_
        show Q _ ((m.adv 1).adv _) _
        rw [Mark.adv_adv, List.append_assoc]
        rw [List.length_append] at hQ
        exact hQ
      · rw [if_neg ht] at hn hQ ⊢
        obtain ⟨t, ht'⟩ := octets_pct_head c
        have hl : 0 < ((octets c).flatMap pct).length := by rw [ht']; exact Nat.succ_pos _
        have key : lw (do
            let x ← scanUriEscapes d start
            cacheC 1
            scanUriLoop u d start n (s ++ [x])) Q m ((octets c).flatMap pct ++ (tagText v ++ r)) := by
          rw [lw_bind]
          refine lw_scanUriEscapes hv1 ?_
          rw [lw_bind, lw_cache1]
          refine ih hv2 hu2 (by simp only [List.length_append] at hn; omega) ?_
          rw [Mark.adv_adv, List.append_assoc]
          rw [List.length_append] at hQ
          exact hQ
        rw [ht'] at key ⊢
        rw [List.cons_append] at key ⊢
        rw [lw_bind, lw_peek0, lw_ite, if_pos (by cases u <;> decide), lw_ite, if_pos (by decide)]
        exact key

theorem cstr_id {s : Text} (h : ∀ c ∈ s, c ≠ 0) : cstr s = s := by
  unfold cstr
  induction s with
  | nil => rfl
  | cons c s ih =>
    rw [List.takeWhile_cons_of_pos (by simpa using h c List.mem_cons_self), ih fun x hx => h x (List.mem_cons_of_mem _ hx)]

theorem lw_scanTagUri {f : Nat} {u d : Bool} {head v : Text} {start : Mark} (hv : ∀ c ∈ v, Storable c ∧ c ≠ 0) (hh : ∀ c ∈ head.tail, c ≠ 0)
    (hu : u = true ∨ ∀ c ∈ v, ¬ flowInd c) (hr : ∃ c t, r = c :: t ∧ isUri u c = false) (hn : (tagText v).length < f)
    (hne : head = [] → v ≠ []) {Q : Text → Mark → Text → Prop}
    (hQ : Q (head.tail ++ v) (m.adv (tagText v).length) r) : lw (scanTagUri f u d head start) Q m (tagText v ++ r) := by
  unfold scanTagUri
  rw [lw_bind, lw_cache1, lw_bind]
  refine lw_scanUriLoop (fun c hc => (hv c hc).1) hu hr hn ?_
  rw [lw_ite, if_neg, lw_pure, cstr_id]
  · exact hQ
  · intro c hc
    rcases List.mem_append.mp hc with hc | hc
    · exact hh c hc
    · exact (hv c hc).2
  · intro h
    simp only [Bool.and_eq_true, List.isEmpty_iff, List.append_eq_nil_iff] at h
    exact hne h.1 h.2.2

/-- What a handle looks like. -/
def HandleOk (h : Text) : Prop := h = [33] ∨ ∃ mid : Text, (∀ c ∈ mid, isAlpha c = true) ∧ h = 33 :: (mid ++ [33])

theorem alpha_facts {c : Nat} (h : isAlpha c = true) : c ≠ 33 ∧ c ≠ 60 ∧ c ≠ 0 ∧ c < 0x80 ∧ isBlankz c = false ∧ tagChar c = true ∧ Storable c := by
  have h' := h
  unfold isAlpha at h
  simp only [Bool.or_eq_true, Bool.and_eq_true, decide_eq_true_eq, beq_iff_eq] at h
  have hlt : c < 123 := by omega
  refine ⟨by omega, by omega, by omega, by omega, ?_, ?_, .inl (by omega)⟩
  · unfold isBlankz isBlank isBreakz isZ isBreak isSpace isTab
    simp
    omega
  · unfold tagChar; rw [h']; rfl

/-- A handle that ends with `!`. -/
theorem lw_scanTagHandle_full {f : Nat} {d : Bool} {start : Mark} {mid : Text} (hm : ∀ c ∈ mid, isAlpha c = true) (hf : mid.length < f)
    {Q : Text → Mark → Text → Prop} (hQ : Q (33 :: (mid ++ [33])) (m.adv (mid.length + 2)) r) :
    lw (scanTagHandle f d start) Q m (33 :: (mid ++ 33 :: r)) := by
  unfold scanTagHandle
  rw [lw_bind, lw_cache1, lw_bind, lw_peek0, lw_ite, if_pos (by decide), lw_bind, lw_readC, lw_bind, lw_cache1, lw_bind]
  refine lw_readWhile hm ⟨33, r, rfl, by decide⟩ hf ?_
  rw [lw_bind, lw_peek0, lw_ite, if_pos (by decide), lw_readC]
  have e : ([] ++ [33] ++ mid ++ [33] : Text) = 33 :: (mid ++ [33]) := by simp
  rw [e]
  have e2 : ∀ k, m.index + 1 + k + 1 = m.index + (k + 2) := by intros; omega
  have e3 : ∀ k, m.column + 1 + k + 1 = m.column + (k + 2) := by intros; omega
  simp only [e2, e3]
  exact hQ

/-- A handle that does not end with `!`. -/
theorem lw_scanTagHandle_short {f : Nat} {d : Bool} {start : Mark} {a : Text} (ha : ∀ c ∈ a, isAlpha c = true) (hf : a.length < f)
    (hr : ∃ c t, r = c :: t ∧ isAlpha c = false ∧ c ≠ 33) (hd : d = true → a = [])
    {Q : Text → Mark → Text → Prop} (hQ : Q (33 :: a) (m.adv (a.length + 1)) r) :
    lw (scanTagHandle f d start) Q m (33 :: (a ++ r)) := by
  obtain ⟨c, t, rfl, hc, hc'⟩ := hr
  unfold scanTagHandle
  rw [lw_bind, lw_cache1, lw_bind, lw_peek0, lw_ite, if_pos (by decide), lw_bind, lw_readC, lw_bind, lw_cache1, lw_bind]
  refine lw_readWhile ha ⟨c, t, rfl, hc⟩ hf ?_
  rw [lw_bind, lw_peek0, lw_ite, if_neg (by simpa using hc'), lw_ite, if_neg, lw_pure]
  · have e : ([] ++ [33] ++ a : Text) = 33 :: a := by simp
    rw [e]
    have e2 : ∀ k, m.index + 1 + k = m.index + (k + 1) := by intros; omega
    have e3 : ∀ k, m.column + 1 + k = m.column + (k + 1) := by intros; omega
    simp only [e2, e3]
    exact hQ
  · intro h
    simp only [Bool.and_eq_true] at h
    rw [hd h.1] at h
    simp at h

theorem tagPiece_head {c : Nat} : ∃ x t, tagPiece c = x :: t ∧ x ≠ 33 ∧ x ≠ 60 ∧ x ≠ 62 ∧ (isAlpha c = false → isAlpha x = false) := by
  unfold tagPiece
  by_cases h : tagChar c = true
  · rw [if_pos h]
    refine ⟨c, [], rfl, ?_, ?_, ?_, id⟩ <;> (rintro rfl; revert h; decide)
  · rw [if_neg h]
    obtain ⟨t, ht⟩ := octets_pct_head c
    exact ⟨37, t, ht, by decide, by decide, by decide, fun _ => by decide⟩

theorem tagText_cons (c : Nat) (v : Text) : tagText (c :: v) = tagPiece c ++ tagText v := List.flatMap_cons

/-- A verbatim tag. -/
theorem lw_scanTagBody_verbatim {f : Nat} {v : Text} {start : Mark} (hv : ∀ c ∈ v, Storable c ∧ c ≠ 0) (hne : v ≠ [])
    (hn : (tagText v).length < f) {Q : Text × Text → Mark → Text → Prop} (hQ : Q ([], v) (m.adv ((tagText v).length + 3)) r) :
    lw (scanTagBody f start) Q m (33 :: 60 :: (tagText v ++ 62 :: r)) := by
  unfold scanTagBody
  rw [lw_bind, lw_cache2, lw_bind, lw_peek1 (by decide), lw_ite, if_pos (by decide), lw_bind, lw_skipC, lw_bind, lw_skipC, lw_bind]
  refine lw_scanTagUri (head := []) hv (by simp) (.inl rfl) ⟨62, r, rfl, by decide⟩ hn (fun _ => hne) ?_
  rw [lw_bind, lw_peek0, lw_ite, if_pos (by decide), lw_bind, lw_skipC, lw_pure]
  show Q ([], v) (((m.adv 2).adv _).adv 1) r
  rw [Mark.adv_adv, Mark.adv_adv]
  have : 2 + ((tagText v).length + 1) = (tagText v).length + 3 := by omega
  rw [this]
  exact hQ

/-- A tag with a handle that ends with `!`. -/
theorem lw_scanTagBody_full {f : Nat} {mid v : Text} {start : Mark} (hm : ∀ c ∈ mid, isAlpha c = true) (hv : ∀ c ∈ v, Storable c ∧ c ≠ 0) (hne : v ≠ [])
    (hu : ∀ c ∈ v, ¬ flowInd c) (hr : ∃ c t, r = c :: t ∧ isUri false c = false) (hn : mid.length + (tagText v).length < f)
    {Q : Text × Text → Mark → Text → Prop} (hQ : Q (33 :: (mid ++ [33]), v) (m.adv ((tagText v).length + (mid.length + 2))) r) :
    lw (scanTagBody f start) Q m (33 :: (mid ++ 33 :: (tagText v ++ r))) := by
  unfold scanTagBody
  have h2 : ∃ c t, mid ++ 33 :: (tagText v ++ r) = c :: t ∧ c ≠ 60 := by
    cases mid with
    | nil => exact ⟨33, _, rfl, by decide⟩
    | cons c mid => exact ⟨c, _, rfl, (alpha_facts (hm c List.mem_cons_self)).2.1⟩
  obtain ⟨c, t, e, hc⟩ := h2
  rw [lw_bind, lw_cache2, lw_bind, e, lw_peek1 (by decide), ← e, lw_ite, if_neg (by simpa using hc), lw_bind]
  refine lw_scanTagHandle_full hm (by omega) ?_
  rw [lw_ite, if_pos (by rw [← List.cons_append, List.getLast?_append]; simp), lw_bind]
  refine lw_scanTagUri (head := []) hv (by simp) (.inr hu) hr (by omega) (fun _ => hne) ?_
  rw [lw_pure, Mark.adv_adv, Nat.add_comm]
  exact hQ

/-- A tag with the handle `!`. -/
theorem lw_scanTagBody_short {f : Nat} {v : Text} {start : Mark} (hv : ∀ c ∈ v, Storable c ∧ c ≠ 0) (hne : v ≠ [])
    (hu : ∀ c ∈ v, ¬ flowInd c) (hr : ∃ c t, r = c :: t ∧ isUri false c = false) (hn : (tagText v).length < f)
    {Q : Text × Text → Mark → Text → Prop} (hQ : Q ([33], v) (m.adv ((tagText v).length + 1)) r) :
    lw (scanTagBody f start) Q m (33 :: (tagText v ++ r)) := by
  unfold scanTagBody
  have h2 : ∃ c t, tagText v ++ r = c :: t ∧ c ≠ 60 := by
    cases v with
    | nil => exact absurd rfl hne
    | cons x v =>
      obtain ⟨c, t, h1, _, h3, _⟩ := tagPiece_head (c := x)
      rw [tagText_cons, h1]
      exact ⟨c, _, rfl, h3⟩
  obtain ⟨c, t, e, hc⟩ := h2
  rw [lw_bind, lw_cache2, lw_bind, e, lw_peek1 (by decide), ← e, lw_ite, if_neg (by simpa using hc), lw_bind]
  have hsplit : ∀ v : Text, ∃ a b, v = a ++ b ∧ (∀ c ∈ a, isAlpha c = true) ∧ tagText v = a ++ tagText b ∧ (∀ c t, b = c :: t → isAlpha c = false) := by
    intro v
    induction v with
    | nil => exact ⟨[], [], rfl, by simp, rfl, by simp⟩
    | cons c v ih =>
      by_cases h : isAlpha c = true
      · obtain ⟨a, b, h1, h2, h3, h4⟩ := ih
        refine ⟨c :: a, b, by rw [h1]; rfl, ?_, ?_, h4⟩
        · intro x hx
          rcases List.mem_cons.mp hx with rfl | hx
          · exact h
          · exact h2 x hx
        · rw [tagText_cons, h3]
          unfold tagPiece
          rw [if_pos (alpha_facts h).2.2.2.2.2.1]
          rfl
      · exact ⟨[], c :: v, rfl, by simp, rfl, fun c' t' he => by cases he; simpa using h⟩
  obtain ⟨a, b, e1, e2, e3, e4⟩ := hsplit v
  rw [e3, List.append_assoc]
  rw [e3, List.length_append] at hn
  rw [e3, List.length_append] at hQ
  have hb : ∀ c ∈ b, Storable c ∧ c ≠ 0 := fun c hc => hv c (by rw [e1]; exact List.mem_append_right _ hc)
  refine lw_scanTagHandle_short e2 (by omega) ?_ (fun h => by cases h) ?_
  · cases b with
    | nil =>
      obtain ⟨c, t, rfl, hc⟩ := hr
      refine ⟨c, t, rfl, ?_, ?_⟩
      · cases h : isAlpha c with
        | false => rfl
        | true => unfold isUri at hc; rw [h] at hc; cases hc
      · rintro rfl; revert hc; decide
    | cons x b =>
      obtain ⟨c, t, h1, h2, _, _, h5⟩ := tagPiece_head (c := x)
      rw [tagText_cons, h1]
      exact ⟨c, _, rfl, h5 (e4 x b rfl), h2⟩
  · rw [lw_ite, if_neg]
    · rw [lw_bind]
      refine lw_scanTagUri (head := 33 :: a) hb (fun c hc => (alpha_facts (e2 c hc)).2.2.1) (.inr fun c hc => hu c (by rw [e1]; exact List.mem_append_right _ hc)) hr
        (by omega) (fun h => by cases h) ?_
      show lw (if (a ++ b).isEmpty = true then pure ([], [33]) else pure ([33], a ++ b)) Q _ r
      rw [← e1, lw_ite, if_neg (by simpa using hne), lw_pure, Mark.adv_adv]
      have : a.length + 1 + (tagText b).length = a.length + (tagText b).length + 1 := by omega
      rw [this]
      exact hQ
    · intro h
      simp only [Bool.and_eq_true, bne_iff_ne, ne_eq, beq_iff_eq] at h
      obtain ⟨⟨_, h2⟩, h3⟩ := h
      cases ha : a.reverse with
      | nil =>
        have : a = [] := by simpa using ha
        subst this
        exact h2 rfl
      | cons x t =>
        have e : a = t.reverse ++ [x] := by rw [← List.reverse_reverse a, ha]; simp
        rw [e, ← List.cons_append, List.getLast?_append] at h3
        simp at h3
        exact (alpha_facts (e2 x (by rw [e]; simp))).1 h3

/-- What may follow a tag. -/
def TagEnd (flow : Bool) (r : Text) : Prop := ∃ c t, r = c :: t ∧ (isBlankz c || (flow && c == c! ',')) = true

theorem TagEnd.notUri {flow : Bool} {r : Text} (h : TagEnd flow r) : ∃ c t, r = c :: t ∧ isUri false c = false := by
  obtain ⟨c, t, rfl, h⟩ := h
  refine ⟨c, t, rfl, ?_⟩
  have hc : isBlankz c = true ∨ c = 44 := by
    rcases Bool.or_eq_true_iff.mp h with h | h
    · exact .inl h
    · exact .inr (by simpa using (Bool.and_eq_true_iff.mp h).2)
  rcases hc with h | rfl
  · unfold isBlankz isBlank isBreakz isZ isBreak isSpace isTab at h
    simp only [Bool.or_eq_true, beq_iff_eq] at h
    rcases h with (h | h) | h | h
    · subst h; decide
    · subst h; decide
    · rcases h with (((h | h) | h) | h) | h <;> (subst h; decide)
    · subst h; decide
  · decide

/-- A tag as the emitter writes it: verbatim, or with a handle. -/
def tagForm (handle : Option Text) (v : Text) : Text :=
  match handle with
  | none => 33 :: 60 :: (tagText v ++ [62])
  | some h => h ++ tagText v

/-- The handle that the scanner reports. -/
def formHandle : Option Text → Text
  | none => []
  | some h => h

theorem lw_scanTag {f : Nat} {flow : Bool} {h : Option Text} {v : Text} (hh : ∀ x, h = some x → HandleOk x ∧ ∀ c ∈ v, ¬ flowInd c)
    (hv : ∀ c ∈ v, Storable c ∧ c ≠ 0) (hne : v ≠ []) (hr : TagEnd flow r) (hn : (tagForm h v).length ≤ f)
    {Q : Token → Mark → Text → Prop}
    (hQ : Q { data := .tag (formHandle h) v, start := m, stop := m.adv (tagForm h v).length } (m.adv (tagForm h v).length) r) :
    lw (scanTag f flow) Q m (tagForm h v ++ r) := by
  have hend : ∀ (hd : Text), hd = formHandle h → lw (do
      cacheC 1
      let c ← peekC 0
      if isBlankz c || (flow && c == c! ',') then
        let stop ← get
        pure { data := .tag hd v, start := m, stop := stop }
      else lexErr (some "while scanning a tag") m "did not find expected whitespace or line break") Q (m.adv (tagForm h v).length) r := by
    rintro _ rfl
    obtain ⟨c, t, rfl, hc⟩ := hr
    rw [lw_bind, lw_cache1, lw_bind, lw_peek0, lw_ite, if_pos hc, lw_bind, lw_get, lw_pure]
    exact hQ
  unfold scanTag
  rw [lw_bind, lw_get, lw_bind]
  cases h with
  | none =>
    have e : tagForm none v ++ r = 33 :: 60 :: (tagText v ++ 62 :: r) := by simp [tagForm]
    have e2 : (tagForm none v).length = (tagText v).length + 3 := by simp [tagForm]
    rw [e]
    refine lw_scanTagBody_verbatim hv hne (by omega) ?_
    rw [e2] at hend
    exact hend [] rfl
  | some x =>
    obtain ⟨h1, h2⟩ := hh x rfl
    rcases h1 with rfl | ⟨mid, h3, rfl⟩
    · have e : tagForm (some [33]) v ++ r = 33 :: (tagText v ++ r) := by simp [tagForm]
      have e2 : (tagForm (some [33]) v).length = (tagText v).length + 1 := by simp [tagForm]
      rw [e]
      refine lw_scanTagBody_short hv hne h2 hr.notUri (by omega) ?_
      rw [e2] at hend
      exact hend [33] rfl
    · have e : tagForm (some (33 :: (mid ++ [33]))) v ++ r = 33 :: (mid ++ 33 :: (tagText v ++ r)) := by simp [tagForm]
      have e2 : (tagForm (some (33 :: (mid ++ [33]))) v).length = (tagText v).length + (mid.length + 2) := by simp [tagForm]; omega
      rw [e]
      refine lw_scanTagBody_full h3 hv hne h2 hr.notUri (by omega) ?_
      rw [e2] at hend
      exact hend _ rfl

/-! ### Directives -/

theorem lw_skipWhile {p : Nat → Bool} {n : Nat} {l : Text} {r : Text} (hl : ∀ c ∈ l, p c = true) (hr : ∃ c t, r = c :: t ∧ p c = false)
    (hn : l.length < n) {Q : Unit → Mark → Text → Prop} (hQ : Q () (m.adv l.length) r) : lw (skipWhile p n) Q m (l ++ r) := by
  induction l generalizing n m with
  | nil =>
    cases n with
    | zero => omega
    | succ n =>
      obtain ⟨c, t, rfl, hp⟩ := hr
      unfold skipWhile
      rw [List.nil_append, lw_bind, lw_peek0, hp, lw_ite, if_neg (by decide), lw_pure]
      exact hQ
  | cons c l ih =>
    cases n with
    | zero => simp at hn
    | succ n =>
      unfold skipWhile
      rw [List.cons_append, lw_bind, lw_peek0, hl c List.mem_cons_self, lw_ite, if_pos rfl, lw_bind, lw_skipC, lw_bind, lw_cache1]
      refine ih (n := n) (fun x hx => hl x (List.mem_cons_of_mem _ hx)) (by simpa using hn) ?_
      show Q () ((m.adv 1).adv _) _
      rw [Mark.adv_adv, Nat.add_comm]
      exact hQ

/-- The name of a directive. -/
theorem lw_scanDirectiveName {f : Nat} {start : Mark} {name : Text} (ha : ∀ c ∈ name, isAlpha c = true) (hne : name ≠ []) (hf : name.length < f)
    {t : Text} {Q : Text → Mark → Text → Prop} (hQ : Q name (m.adv name.length) (32 :: t)) :
    lw (scanDirectiveName f start) Q m (name ++ 32 :: t) := by
  unfold scanDirectiveName
  rw [lw_bind, lw_cache1, lw_bind]
  refine lw_readWhile ha ⟨32, t, rfl, by decide⟩ hf ?_
  rw [List.nil_append, lw_ite, if_neg (by simpa using hne), lw_bind, lw_peek0, lw_ite, if_pos (by decide), lw_pure]
  exact hQ

/-- `%TAG`, the handle and the prefix. -/
def tagDirText (d : TagDir) : Text := [37, 84, 65, 71, 32] ++ (d.handle ++ 32 :: tagText d.pfx)

/-- A directive that the emitter accepts. -/
structure TagDirOk (d : TagDir) : Prop where
  handle : HandleOk d.handle
  text : ∀ c ∈ d.pfx, Storable c ∧ c ≠ 0
  pfx : d.pfx ≠ []

theorem lw_scanTagHandle_ok {f : Nat} {start : Mark} {h : Text} (hh : HandleOk h) (hf : h.length ≤ f) {t : Text}
    {Q : Text → Mark → Text → Prop} (hQ : Q h (m.adv h.length) (32 :: t)) : lw (scanTagHandle f true start) Q m (h ++ 32 :: t) := by
  rcases hh with rfl | ⟨mid, h3, rfl⟩
  · exact lw_scanTagHandle_short (a := []) (by simp) (by simp only [List.length_cons, List.length_nil] at hf ⊢; omega) ⟨32, t, rfl, by decide, by decide⟩ (fun _ => rfl) hQ
  · have e : 33 :: (mid ++ [33]) ++ 32 :: t = 33 :: (mid ++ 33 :: 32 :: t) := by simp
    have e2 : (33 :: (mid ++ [33])).length = mid.length + 2 := by simp
    rw [e]
    rw [e2] at hQ hf
    exact lw_scanTagHandle_full h3 (by omega) hQ

theorem HandleOk.head {h : Text} (hh : HandleOk h) : ∃ t, h = 33 :: t := by
  rcases hh with rfl | ⟨mid, _, rfl⟩ <;> exact ⟨_, rfl⟩

theorem lw_scanTagDirValue {f : Nat} {start : Mark} {d : TagDir} (hd : TagDirOk d) (hf : d.handle.length + (tagText d.pfx).length + 2 ≤ f)
    (hr : ∃ c t, r = c :: t ∧ isBlankz c = true) {Q : TagDir → Mark → Text → Prop}
    (hQ : Q d (m.adv (2 + d.handle.length + (tagText d.pfx).length)) r) :
    lw (scanTagDirValue f start) Q m (32 :: (d.handle ++ 32 :: (tagText d.pfx ++ r))) := by
  unfold scanTagDirValue
  have hu : ∃ c t, r = c :: t ∧ isUri true c = false := by
    obtain ⟨c, t, rfl, hc⟩ := hr
    refine ⟨c, t, rfl, ?_⟩
    have h1 := TagEnd.notUri (flow := false) (r := [c]) ⟨c, [], rfl, by rw [hc]; rfl⟩
    obtain ⟨c', t', e, h1⟩ := h1
    cases e
    have h2 : c ≠ 44 ∧ c ≠ 91 ∧ c ≠ 93 := by refine ⟨?_, ?_, ?_⟩ <;> (rintro rfl; revert hc; decide)
    unfold isUri at h1 ⊢
    have h3 : ((c == 44) || (c == 91) || (c == 93)) = false := by simp [h2]
    simp only [Bool.or_eq_false_iff] at h1 ⊢
    refine ⟨h1.1, ?_⟩
    simp [h2]
  obtain ⟨t1, e1⟩ := hd.handle.head
  have hp : ∃ c t, tagText d.pfx ++ r = c :: t ∧ isBlank c = false := by
    cases hx : d.pfx with
    | nil => exact absurd hx hd.pfx
    | cons x v =>
      rw [tagText_cons]
      unfold tagPiece
      by_cases h : tagChar x = true
      · rw [if_pos h]
        refine ⟨x, _, rfl, ?_⟩
        cases hb : isBlank x with
        | false => rfl
        | true =>
          have : x = 32 ∨ x = 9 := by simpa [isBlank, isSpace, isTab] using hb
          rcases this with rfl | rfl <;> (revert h; decide)
      · rw [if_neg h]
        obtain ⟨t, ht⟩ := octets_pct_head x
        rw [ht]
        exact ⟨37, _, rfl, by decide⟩
  rw [lw_bind, lw_cache1, lw_bind]
  refine lw_skipWhile (l := [32]) (by decide) ⟨33, _, by rw [e1]; rfl, by decide⟩ (by simp; omega) ?_
  rw [lw_bind]
  refine lw_scanTagHandle_ok hd.handle (by omega) ?_
  rw [lw_bind, lw_cache1, lw_bind, lw_peek0, lw_ite, if_pos (by decide), lw_bind]
  refine lw_skipWhile (l := [32]) (by decide) hp (by simp; omega) ?_
  rw [lw_bind]
  refine lw_scanTagUri (head := []) hd.text (by simp) (.inl rfl) hu (by omega) (fun _ => hd.pfx) ?_
  obtain ⟨c, t, rfl, hc⟩ := hr
  rw [lw_bind, lw_cache1, lw_bind, lw_peek0, lw_ite, if_pos hc, lw_pure, Mark.adv_adv, Mark.adv_adv, Mark.adv_adv]
  have : [32].length + (d.handle.length + ([32].length + (tagText d.pfx).length)) = 2 + d.handle.length + (tagText d.pfx).length := by
    simp only [List.length_cons, List.length_nil]; omega
  rw [this]
  exact hQ

/-- A `%TAG` directive and the end of its line. -/
theorem lw_scanDirective_tag {f : Nat} {d : TagDir} {lb : Break} (hd : TagDirOk d) (hf : (tagDirText d).length ≤ f) (hr : AfterBreak lb r)
    {Q : Token → Mark → Text → Prop} (hQ : ∀ st k, Q { data := .tagDirective d, start := m, stop := st } { index := k, line := m.line + 1, column := 0 } r) :
    lw (scanDirective f) Q m (tagDirText d ++ (brkText (some lb) ++ r)) := by
  have hl : (tagDirText d).length = 6 + d.handle.length + (tagText d.pfx).length := by simp [tagDirText]; omega
  have e : tagDirText d ++ (brkText (some lb) ++ r) = 37 :: ([84, 65, 71] ++ 32 :: (d.handle ++ 32 :: (tagText d.pfx ++ (brkText (some lb) ++ r)))) := by
    simp [tagDirText]
  rw [e]
  unfold scanDirective
  rw [lw_bind, lw_get, lw_bind, lw_skipC, lw_bind]
  refine lw_scanDirectiveName (name := [84, 65, 71]) (by decide) (by decide) (by simp; omega) ?_
  rw [lw_ite, if_neg (by decide), lw_ite, if_pos (by decide), lw_bind]
  have hb : ∃ c t, brkText (some lb) ++ r = c :: t ∧ isBlankz c = true := by
    cases lb <;> exact ⟨_, _, rfl, by decide⟩
  refine lw_scanTagDirValue hd (by omega) hb ?_
  rw [lw_bind, lw_get, lw_bind]
  refine lw_finishLine (by omega) hr fun k => ?_
  rw [lw_pure]
  exact hQ _ k

/-- `%YAML 1.1` or `%YAML 1.2` and the end of the line. -/
theorem lw_scanDirective_version {f : Nat} {minor : Nat} {lb : Break} (hm : minor = 1 ∨ minor = 2) (hf : 9 ≤ f) (hr : AfterBreak lb r)
    {Q : Token → Mark → Text → Prop}
    (hQ : ∀ st k, Q { data := .versionDirective ⟨1, minor⟩, start := m, stop := st } { index := k, line := m.line + 1, column := 0 } r) :
    lw (scanDirective f) Q m ([37, 89, 65, 77, 76, 32, 49, 46, 48 + minor] ++ (brkText (some lb) ++ r)) := by
  have e : [37, 89, 65, 77, 76, 32, 49, 46, 48 + minor] ++ (brkText (some lb) ++ r) =
      37 :: ([89, 65, 77, 76] ++ 32 :: (49 :: 46 :: (48 + minor) :: (brkText (some lb) ++ r))) := by simp
  rw [e]
  have hb : ∃ c t, brkText (some lb) ++ r = c :: t ∧ isDigit c = false := by
    cases lb <;> exact ⟨_, _, rfl, by decide⟩
  unfold scanDirective
  rw [lw_bind, lw_get, lw_bind, lw_skipC, lw_bind]
  refine lw_scanDirectiveName (name := [89, 65, 77, 76]) (by decide) (by decide) (by simp; omega) ?_
  rw [lw_ite, if_pos (by decide), lw_bind]
  unfold scanVersionValue
  rw [lw_bind, lw_cache1, lw_bind]
  refine lw_skipWhile (l := [32]) (by decide) ⟨49, _, rfl, by decide⟩ (by simp; omega) ?_
  rw [lw_bind, lw_cache1, lw_bind]
  obtain ⟨f, rfl⟩ : ∃ n, f = n + 2 := ⟨f - 2, by omega⟩
  have hdig : ∀ (dg : Nat) (hdg : isDigit dg = true) (start m : Mark) (x : Text) (hx : ∃ c t, x = c :: t ∧ isDigit c = false) (Q : Nat → Mark → Text → Prop),
      Q (asDigit dg) (m.adv 1) x → lw (scanVersionNumber start (f + 2) 0 0) Q m (dg :: x) := by
    rintro dg hdg start m x ⟨c, t, rfl, hc⟩ Q hq
    unfold scanVersionNumber
    rw [lw_bind, lw_peek0, lw_ite, if_pos hdg, lw_ite, if_neg (by decide), lw_bind, lw_skipC, lw_bind, lw_cache1]
    unfold scanVersionNumber
    rw [lw_bind, lw_peek0, lw_ite, if_neg (by rw [hc]; decide), lw_ite, if_neg (by decide), lw_pure, Nat.zero_mul, Nat.zero_add]
    exact hq
  refine hdig 49 (by decide) _ _ _ ⟨46, _, rfl, by decide⟩ _ ?_
  rw [lw_bind, lw_peek0, lw_ite, if_pos (by decide), lw_bind, lw_skipC, lw_bind, lw_cache1, lw_bind]
  refine hdig _ (by rcases hm with rfl | rfl <;> decide) _ _ _ hb _ ?_
  rw [lw_pure, lw_bind, lw_get, lw_bind]
  refine lw_finishLine (by omega) hr fun k => ?_
  rw [lw_pure]
  have : (⟨asDigit 49, asDigit (48 + minor)⟩ : Version) = ⟨1, minor⟩ := by rcases hm with rfl | rfl <;> rfl
  rw [this]
  exact hQ _ k

/-! ### Anchors and aliases -/

theorem lw_scanAnchor {f : Nat} {an : Bool} {v : Text} (hv : ∀ c ∈ v, isAlpha c = true) (hne : v ≠ []) (hf : v.length < f)
    (hr : ∃ c t, r = c :: t ∧ endsAnchor c = true) {Q : Token → Mark → Text → Prop}
    (hQ : Q { data := if an = true then .anchor v else .alias v, start := m, stop := m.adv (v.length + 1) } (m.adv (v.length + 1)) r) :
    lw (scanAnchor f an) Q m ((if an = true then 38 else 42) :: (v ++ r)) := by
  obtain ⟨c, t, rfl, hc⟩ := hr
  have ha : isAlpha c = false := by
    cases h : isAlpha c with
    | false => rfl
    | true =>
      have hb := (alpha_facts h).2.2.2.2.1
      unfold endsAnchor at hc
      rw [hb] at hc
      simp only [Bool.or_eq_true, beq_iff_eq, Bool.false_eq_true, false_or] at hc
      rcases hc with ((((((h' | h') | h') | h') | h') | h') | h') | h' <;> (rw [h'] at h; revert h; decide)
  unfold scanAnchor
  rw [lw_bind, lw_get, lw_bind, lw_skipC, lw_bind, lw_cache1, lw_bind]
  refine lw_readWhile hv ⟨c, t, rfl, ha⟩ hf ?_
  rw [List.nil_append, lw_bind, lw_get, lw_bind, lw_peek0, lw_ite, if_pos (by simp [hne, hc]), lw_pure]
  have e2 : ∀ k, m.index + 1 + k = m.index + (k + 1) := by intros; omega
  have e3 : ∀ k, m.column + 1 + k = m.column + (k + 1) := by intros; omega
  simp only [e2, e3]
  exact hQ

end LibYaml
