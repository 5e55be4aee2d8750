import Verif.Proofs.LexBlock
import Verif.Proofs.TagScan

/-!
# Anchors, tags, directives and white space against the lexical rules
-/

namespace LibYaml

open Spec

variable {m m' : Mark} {cs cs' : Text} {u : Unit}

/-! ### Anchors -/

theorem words_iff {l : Text} : (∀ c ∈ l, isAlpha c = true) ↔ ∀ c ∈ l, Word c :=
  ⟨fun h c hc => word_iff.mp (h c hc), fun h c hc => word_iff.mpr (h c hc)⟩

theorem word_heads : Heads (fun c => isAlpha c = false) cs ↔ Heads (fun c => ¬ Word c) cs := by
  constructor
  · rintro ⟨c, r, rfl, h⟩; exact ⟨c, r, rfl, by show ¬ _; rw [← word_iff]; simp [h]⟩
  · rintro ⟨c, r, rfl, h⟩; exact ⟨c, r, rfl, by rw [← word_iff] at h; simpa using h⟩

theorem y_words {n : Nat} {s t : Text} (hn : cs.length < n) : Yields (readWhile isAlpha n s) m cs t m' cs' ↔
    ∃ l, cs = l ++ cs' ∧ (∀ c ∈ l, Word c) ∧ Heads (fun c => ¬ Word c) cs' ∧ t = s ++ l ∧ m' = m.steps l.length := by
  rw [y_readWhile hn]
  simp only [words_iff, word_heads]

theorem endsAnchor_iff {c : Nat} : endsAnchor c = true ↔ White c ∨ c ∈ [0x3F, 0x3A, 0x2C, 0x5D, 0x7D, 0x25, 0x40, 0x60] := by
  simp [endsAnchor, white_iff, or_assoc]

theorem scanAnchor_iff {f : Nat} {anchor : Bool} {q : Nat} {t : TokData} (hf : cs.length < f) :
    (∃ a b m', Yields (scanAnchor f anchor) m (q :: cs) { data := t, start := a, stop := b } m' cs') ↔
      ∃ v, AnchorName cs v cs' ∧ t = if anchor = true then .anchor v else .alias v := by
  unfold scanAnchor
  constructor
  · rintro ⟨a, b, m', h⟩
    simp only [y_bind, y_get, y_skipC, y_cache1, y_peek0, y_ite, y_pure, y_err, and_false, or_false] at h
    obtain ⟨_, _, _, ⟨rfl, rfl, rfl⟩, _, _, _, ⟨_, e, rfl⟩, _, _, _, ⟨rfl, rfl⟩, s, m1, cs1, h, _, _, _, ⟨rfl, rfl, rfl⟩, c, _, _, ⟨r, rfl, rfl, rfl⟩, he, h2, rfl, rfl⟩ := h
    cases e
    rw [y_words hf] at h
    obtain ⟨_, e, hw, ⟨_, _, e', hn⟩, rfl, rfl⟩ := h
    cases h2
    cases e'
    simp only [Bool.and_eq_true, Bool.not_eq_true', List.isEmpty_eq_false_iff, endsAnchor_iff] at he ⊢
    exact ⟨s, ⟨e, he.1, hw, c, r, rfl, hn, he.2⟩, rfl⟩
  · rintro ⟨v, ⟨rfl, hv, hw, c, r, rfl, hc, he⟩, rfl⟩
    simp only [y_bind, y_get, y_skipC, y_cache1, y_peek0, y_ite, y_pure, y_err, and_false, or_false]
    refine ⟨m, m.step.steps v.length, m.step.steps v.length, m, m, _, ⟨rfl, rfl, rfl⟩, (), _, _, ⟨q, rfl, rfl⟩, (), _, _, ⟨rfl, rfl⟩, v, _, _, (y_words hf).mpr ⟨v, rfl, hw, ⟨c, r, rfl, hc⟩, rfl, rfl⟩, _, _, _, ⟨rfl, rfl, rfl⟩, c, _, _, ⟨r, rfl, rfl, rfl⟩, ?_, rfl, rfl, rfl⟩
    simp only [Bool.and_eq_true, Bool.not_eq_true', List.isEmpty_eq_false_iff, endsAnchor_iff]
    exact ⟨hv, he⟩

/-! ### Percent escapes -/

theorem y_scanOctet {d : Bool} {start : Mark} {o : Nat} : Yields (scanOctet d start) m cs o m' cs' ↔
    ∃ a b x y r, cs = 0x25 :: a :: b :: r ∧ Hex a x ∧ Hex b y ∧ o = x * 16 + y ∧ m' = m ∧ cs' = cs := by
  unfold scanOctet
  simp only [y_bind, y_cache3, y_peek0, y_ite, y_err, and_false, or_false, y_pure, y_peek (j := 1), y_peek (j := 2)]
  constructor
  · rintro ⟨_, _, _, ⟨rfl, rfl⟩, c, _, _, ⟨r, rfl, rfl, rfl⟩, hc, a, _, _, ⟨_, ha, rfl, rfl⟩, hxa, b, _, _, ⟨_, hb, rfl, rfl⟩, hxb, rfl, rfl, rfl⟩
    have hc : c = 0x25 := by simpa using hc
    subst hc
    match r, ha, hb with
    | a' :: b' :: r, ha, hb =>
      have ha : a' = a := by simpa using ha
      have hb : b' = b := by simpa using hb
      subst ha hb
      exact ⟨a', b', _, _, r, rfl, .of hxa, .of hxb, rfl, rfl, rfl⟩
  · rintro ⟨a, b, x, y, r, rfl, ha, hb, rfl, rfl, rfl⟩
    have hav := ha.value
    have hbv := hb.value
    refine ⟨(), _, _, ⟨rfl, rfl⟩, _, _, _, ⟨_, rfl, rfl, rfl⟩, by rfl, a, _, _, ⟨by simp, rfl, rfl, rfl⟩, hav.1, b, _, _, ⟨by simp; omega, rfl, rfl, rfl⟩, hbv.1, ?_, rfl, rfl⟩
    rw [hav.2.1, hbv.2.1]

theorem Spec.Octets.length {src os : List Nat} (h : Octets src os) : src.length = 3 * os.length := by
  induction h with
  | nil => rfl
  | cons _ _ _ ih => simp only [List.length_cons, ih]; omega

theorem trailing_sound {d : Bool} {start : Mark} {w : Nat} {os os' : List Nat} (h : Yields (scanTrailing d start w os) m cs os' m' cs') :
    ∃ src ns, cs = src ++ cs' ∧ Octets src ns ∧ os' = os ++ ns ∧ ns.length = w ∧ ∀ b ∈ ns, 0x80 ≤ b ∧ b < 0xC0 := by
  induction w generalizing m cs os with
  | zero =>
    unfold scanTrailing at h
    rw [y_pure] at h
    obtain ⟨rfl, rfl, rfl⟩ := h
    exact ⟨[], [], rfl, .nil, by simp, rfl, by simp⟩
  | succ w ih =>
    unfold scanTrailing at h
    simp only [y_bind, y_scanOctet, y_ite, y_skipC, y_err, and_false, or_false] at h
    obtain ⟨o, _, _, ⟨a, b, x, y, r, rfl, ha, hb, rfl, rfl, rfl⟩, ho, _, _, _, ⟨_, e1, rfl⟩, _, _, _, ⟨_, e2, rfl⟩, _, _, _, ⟨_, e3, rfl⟩, h⟩ := h
    cases e1; cases e2; cases e3
    obtain ⟨src, ns, rfl, h1, rfl, rfl, h4⟩ := ih h
    exact ⟨0x25 :: a :: b :: src, _ :: ns, rfl, .cons ha hb h1, by simp, rfl, all_cons ho h4⟩

theorem trailing_complete {d : Bool} {start : Mark} {src os ns : List Nat} (h : Octets src ns) (hn : ∀ b ∈ ns, 0x80 ≤ b ∧ b < 0xC0) :
    ∃ m', Yields (scanTrailing d start ns.length os) m (src ++ cs) (os ++ ns) m' cs := by
  induction h generalizing m os with
  | nil =>
    refine ⟨m, ?_⟩
    show Yields (scanTrailing d start 0 os) _ _ _ _ _
    unfold scanTrailing
    rw [y_pure]
    exact ⟨by simp, rfl, rfl⟩
  | cons ha hb _ ih =>
    rename_i a b x y src ns _
    obtain ⟨m', h'⟩ := ih (m := m.step.step.step) (os := os ++ [x * 16 + y]) (fun b hb => hn b (List.mem_cons_of_mem _ hb))
    refine ⟨m', ?_⟩
    show Yields (scanTrailing d start (ns.length + 1) os) _ _ _ _ _
    unfold scanTrailing
    simp only [y_bind, y_scanOctet, y_ite, y_skipC, y_err, and_false, or_false]
    refine ⟨_, _, _, ⟨a, b, x, y, src ++ cs, rfl, ha, hb, rfl, rfl, rfl⟩, hn _ List.mem_cons_self, (), _, _, ⟨_, rfl, rfl⟩, (), _, _, ⟨_, rfl, rfl⟩, (), _, _, ⟨_, rfl, rfl⟩, ?_⟩
    simpa using h'

theorem octetWidth_pos {a n : Nat} (h : (n = 1 ∧ 0xC0 ≤ a ∧ a < 0xE0) ∨ (n = 2 ∧ 0xE0 ≤ a ∧ a < 0xF0) ∨ (n = 3 ∧ 0xF0 ≤ a ∧ a < 0xF8)) : octetWidth a = n + 1 := by
  unfold octetWidth
  rcases h with h | h | h
  · rw [if_neg (by omega), if_pos (by omega)]; omega
  · rw [if_neg (by omega), if_neg (by omega), if_pos (by omega)]; omega
  · rw [if_neg (by omega), if_neg (by omega), if_neg (by omega), if_pos (by omega)]; omega

theorem octet1_iff {a : Nat} {os : List Nat} : Octet1 (a :: os) ↔ octetWidth a ≠ 0 ∧ os.length = octetWidth a - 1 ∧ ∀ b ∈ os, 0x80 ≤ b ∧ b < 0xC0 := by
  constructor
  · intro h
    cases h with
    | one _ h =>
      have : octetWidth a = 1 := by unfold octetWidth; rw [if_pos h]
      rw [this]; simp
    | more _ n _ h h1 h2 =>
      have := octetWidth_pos h
      refine ⟨by omega, by omega, h2⟩
  · rintro ⟨h0, h1, h2⟩
    unfold octetWidth at h0 h1
    by_cases c1 : a < 0x80
    · rw [if_pos c1] at h1
      have : os = [] := by simpa using h1
      subst this
      exact .one a c1
    rw [if_neg c1] at h0 h1
    by_cases c2 : 0xC0 ≤ a ∧ a < 0xE0
    · rw [if_pos c2] at h1
      exact .more a 1 os (by omega) h1 h2
    rw [if_neg c2] at h0 h1
    by_cases c3 : 0xE0 ≤ a ∧ a < 0xF0
    · rw [if_pos c3] at h1
      exact .more a 2 os (by omega) h1 h2
    rw [if_neg c3] at h0 h1
    by_cases c4 : 0xF0 ≤ a ∧ a < 0xF8
    · rw [if_pos c4] at h1
      exact .more a 3 os (by omega) h1 h2
    rw [if_neg c4] at h0
    exact absurd rfl h0

theorem escapes_sound {d : Bool} {start : Mark} {v : Nat} (h : Yields (scanUriEscapes d start) m cs v m' cs') :
    ∃ src os, cs = src ++ cs' ∧ Octets src os ∧ Octet1 os ∧ v = octetsChar os := by
  unfold scanUriEscapes at h
  simp only [y_bind, y_scanOctet, y_ite, y_skipC, y_err, and_false, false_or, y_pure] at h
  obtain ⟨o, _, _, ⟨a, b, x, y, r, rfl, ha, hb, rfl, rfl, rfl⟩, ho, _, _, _, ⟨_, e1, rfl⟩, _, _, _, ⟨_, e2, rfl⟩, _, _, _, ⟨_, e3, rfl⟩, os', _, _, h, rfl, rfl, rfl⟩ := h
  cases e1; cases e2; cases e3
  obtain ⟨src, ns, rfl, h1, rfl, h3, h4⟩ := trailing_sound h
  exact ⟨0x25 :: a :: b :: src, _ :: ns, rfl, .cons ha hb h1, octet1_iff.mpr ⟨ho, h3, h4⟩, rfl⟩

theorem escapes_complete {d : Bool} {start : Mark} {src os : List Nat} (h : Octets src os) (ho : Octet1 os) :
    ∃ m', Yields (scanUriEscapes d start) m (src ++ cs) (octetsChar os) m' cs := by
  unfold scanUriEscapes
  cases h with
  | nil => cases ho
  | cons ha hb h =>
    rename_i a b x y src ns
    rw [octet1_iff] at ho
    obtain ⟨m', h'⟩ := trailing_complete (d := d) (start := start) (m := m.step.step.step) (cs := cs) (os := [x * 16 + y]) h ho.2.2
    rw [ho.2.1] at h'
    refine ⟨m', ?_⟩
    simp only [y_bind, y_scanOctet, y_ite, y_skipC, y_err, and_false, false_or, y_pure]
    exact ⟨_, _, _, ⟨a, b, x, y, src ++ cs, rfl, ha, hb, rfl, rfl, rfl⟩, ho.1, (), _, _, ⟨_, rfl, rfl⟩, (), _, _, ⟨_, rfl, rfl⟩, (), _, _, ⟨_, rfl, rfl⟩, _, _, _, h', rfl, rfl, rfl⟩

theorem octets_cases {os : List Nat} (h : Octet1 os) :
    (∃ c, c < 0x200000 ∧ (utf8 c).map UInt8.toNat = os) ∨ octetsChar os = 0x200000 + bigEndian os := by
  have tn : ∀ n, n < 256 → (UInt8.ofNat n).toNat = n := fun n hn => by simp [Nat.mod_eq_of_lt hn]
  cases h with
  | one a h =>
    refine .inl ⟨a, by omega, ?_⟩
    unfold utf8
    rw [if_pos h]
    simp only [List.map_cons, List.map_nil]
    rw [tn a (by omega)]
  | more a n os h h1 h2 =>
    rcases h with ⟨rfl, ha⟩ | ⟨rfl, ha⟩ | ⟨rfl, ha⟩
    · match os, h1, h2 with
      | [b], _, h2 =>
        have hb := h2 b (by simp)
        by_cases hv : 0x80 ≤ a % 0x20 * 0x40 + b % 0x40
        · refine .inl ⟨a % 0x20 * 0x40 + b % 0x40, by omega, ?_⟩
          unfold utf8
          rw [if_neg (by omega), if_pos (by omega)]
          simp only [List.map_cons, List.map_nil]
          rw [tn _ (by omega), tn _ (by omega)]
          congr 1
          · omega
          · congr 1; omega
        · right
          unfold octetsChar
          dsimp only
          rw [if_neg hv]
          simp [bigEndian]
    · match os, h1, h2 with
      | [b, c], _, h2 =>
        have hb := h2 b (by simp)
        have hc := h2 c (by simp)
        by_cases hv : 0x800 ≤ (a % 0x10 * 0x40 + b % 0x40) * 0x40 + c % 0x40
        · refine .inl ⟨(a % 0x10 * 0x40 + b % 0x40) * 0x40 + c % 0x40, by omega, ?_⟩
          unfold utf8
          rw [if_neg (by omega), if_neg (by omega), if_pos (by omega)]
          simp only [List.map_cons, List.map_nil]
          rw [tn _ (by omega), tn _ (by omega), tn _ (by omega)]
          congr 1
          · omega
          · congr 1
            · omega
            · congr 1; omega
        · right
          unfold octetsChar
          dsimp only
          rw [if_neg hv]
          simp [bigEndian]
    · match os, h1, h2 with
      | [b, c, e], _, h2 =>
        have hb := h2 b (by simp)
        have hc := h2 c (by simp)
        have he := h2 e (by simp)
        by_cases hv : 0x10000 ≤ ((a % 8 * 0x40 + b % 0x40) * 0x40 + c % 0x40) * 0x40 + e % 0x40
        · refine .inl ⟨((a % 8 * 0x40 + b % 0x40) * 0x40 + c % 0x40) * 0x40 + e % 0x40, by omega, ?_⟩
          unfold utf8
          rw [if_neg (by omega), if_neg (by omega), if_neg (by omega)]
          simp only [List.map_cons, List.map_nil]
          rw [tn _ (by omega), tn _ (by omega), tn _ (by omega), tn _ (by omega)]
          congr 1
          · omega
          · congr 1
            · omega
            · congr 1
              · omega
              · congr 1; omega
        · right
          unfold octetsChar
          dsimp only
          rw [if_neg hv]
          simp [bigEndian]

theorem octetsChar_of {c : Nat} {os : List Nat} (h1 : c < 0x200000) (h : (utf8 c).map UInt8.toNat = os) : octetsChar os = c := by
  obtain ⟨b, bs, e, _, _, h4⟩ := utf8_octets h1
  rw [e] at h
  rw [← h]
  exact h4

theorem octetValue_iff {os : List Nat} {v : Nat} (h : Octet1 os) : OctetValue os v ↔ v = octetsChar os := by
  constructor
  · intro hv
    cases hv with
    | char _ h1 h3 => exact (octetsChar_of h1 h3).symm
    | raw hn =>
      rcases octets_cases h with ⟨c, h1, h3⟩ | h
      · exact absurd h3 (hn c h1)
      · exact h.symm
  · rintro rfl
    by_cases hx : ∃ c, c < 0x200000 ∧ (utf8 c).map UInt8.toNat = os
    · obtain ⟨c, h1, h3⟩ := hx
      rw [octetsChar_of h1 h3]
      exact .char c h1 h3
    · rcases octets_cases h with hc | h
      · exact absurd hc hx
      · rw [h]
        exact .raw (fun c h1 h3 => hx ⟨c, h1, h3⟩)

/-! ### Tags -/

theorem isUri_iff {full : Bool} {c : Nat} : isUri full c = true ↔ UriChar full c ∨ c = 0x25 := by
  cases full <;> simp [isUri, UriChar, word_iff, Word] <;> omega

theorem uriChar_pct {full : Bool} : ¬ UriChar full 0x25 := by
  simp [UriChar, Word]

theorem uri_sound {full d : Bool} {start : Mark} {n : Nat} {s t : Text} (h : Yields (scanUriLoop full d start n s) m cs t m' cs') :
    ∃ v, Uri full cs v cs' ∧ t = s ++ v := by
  induction n generalizing m cs s with
  | zero => cases h
  | succ n ih =>
    unfold scanUriLoop at h
    simp only [y_bind, y_peek0, y_ite, y_cache1, y_readC, y_pure] at h
    obtain ⟨c, _, _, ⟨r, rfl, rfl, rfl⟩, ⟨hc, ⟨hp, v, m1, cs1, h1, _, _, _, ⟨rfl, rfl⟩, h⟩ | ⟨hp, _, _, _, ⟨_, e, rfl, rfl⟩, _, _, _, ⟨rfl, rfl⟩, h⟩⟩ | ⟨hc, rfl, rfl, rfl⟩⟩ := h
    · obtain ⟨src, os, e, o1, o2, rfl⟩ := escapes_sound h1
      obtain ⟨w, hw, rfl⟩ := ih h
      rw [e]
      exact ⟨_ :: w, .escape o1 o2 ((octetValue_iff o2).mpr rfl) hw, by simp⟩
    · cases e
      obtain ⟨w, hw, rfl⟩ := ih h
      rw [isUri_iff] at hc
      have hp : c ≠ 0x25 := by simpa using hp
      rcases hc with hc | hc
      · exact ⟨c :: w, .char hc hw, by simp⟩
      · exact absurd hc hp
    · rw [isUri_iff] at hc
      exact ⟨[], .done _ ⟨c, r, rfl, fun h => hc (.inl h), fun h => hc (.inr h)⟩, by simp⟩

theorem uri_complete {full d : Bool} {start : Mark} {n : Nat} {s v : Text} (h : Uri full cs v cs') (hn : cs.length < n) :
    ∃ m', Yields (scanUriLoop full d start n s) m cs (s ++ v) m' cs' := by
  induction h generalizing m n s with
  | done cs hc =>
    obtain ⟨c, r, rfl, h1, h2⟩ := hc
    obtain ⟨n, rfl⟩ : ∃ k, n = k + 1 := ⟨n - 1, by omega⟩
    unfold scanUriLoop
    simp only [y_bind, y_peek0, y_ite, y_cache1, y_readC, y_pure]
    exact ⟨m, c, _, _, ⟨r, rfl, rfl, rfl⟩, .inr ⟨by rw [isUri_iff]; simp [h1, h2], by simp⟩⟩
  | char hc _ ih =>
    rename_i c cs v rest _
    obtain ⟨n, rfl⟩ : ∃ k, n = k + 1 := ⟨n - 1, by omega⟩
    obtain ⟨m', h⟩ := ih (m := m.step) (n := n) (s := s ++ [c]) (by simp at hn; omega)
    unfold scanUriLoop
    simp only [y_bind, y_peek0, y_ite, y_cache1, y_readC, y_pure]
    have hp : c ≠ 0x25 := by intro e; subst e; exact uriChar_pct hc
    refine ⟨m', c, _, _, ⟨cs, rfl, rfl, rfl⟩, .inl ⟨isUri_iff.mpr (.inl hc), .inr ⟨by simpa using hp, _, _, _, ⟨_, rfl, rfl, rfl⟩, (), _, _, ⟨rfl, rfl⟩, ?_⟩⟩⟩
    simpa using h
  | escape h1 h2 h3 _ ih =>
    rename_i src os w cs v rest _
    rw [octetValue_iff h2] at h3
    obtain ⟨n, rfl⟩ : ∃ k, n = k + 1 := ⟨n - 1, by omega⟩
    obtain ⟨m1, he⟩ := escapes_complete (d := d) (start := start) (m := m) (cs := cs) h1 h2
    have hl := h1.length
    obtain ⟨m', h⟩ := ih (m := m1) (n := n) (s := s ++ [w]) (by
      have : os ≠ [] := by intro e; subst e; cases h2
      have : 0 < os.length := by cases os with | nil => exact absurd rfl this | cons => simp
      simp at hn; omega)
    have hsrc : ∃ r, src ++ cs = 0x25 :: r := by
      cases h1 with
      | nil => cases h2
      | cons => exact ⟨_, rfl⟩
    obtain ⟨r, hr⟩ := hsrc
    rw [hr] at he ⊢
    unfold scanUriLoop
    simp only [y_bind, y_peek0, y_ite, y_cache1, y_readC, y_pure]
    refine ⟨m', 0x25, _, _, ⟨r, rfl, rfl, rfl⟩, .inl ⟨isUri_iff.mpr (.inr rfl), .inl ⟨by rfl, _, m1, cs, he, (), _, _, ⟨rfl, rfl⟩, ?_⟩⟩⟩
    rw [← h3]
    simpa using h

theorem cstr_upToNul {v : Text} : cstr v = upToNul v := by
  unfold cstr upToNul
  congr 1
  funext c
  by_cases h : c = 0 <;> simp [h]

theorem tagUri_sound {f : Nat} {full d : Bool} {head t : Text} {start : Mark} (h : Yields (scanTagUri f full d head start) m cs t m' cs') :
    ∃ v, Uri full cs v cs' ∧ (head = [] → v ≠ []) ∧ t = upToNul (head.tail ++ v) := by
  unfold scanTagUri at h
  simp only [y_bind, y_cache1, y_ite, y_err, and_false, false_or, y_pure] at h
  obtain ⟨_, _, _, ⟨rfl, rfl⟩, s, _, _, h, hs, rfl, rfl, rfl⟩ := h
  obtain ⟨v, hv, rfl⟩ := uri_sound h
  refine ⟨v, hv, ?_, cstr_upToNul⟩
  rintro rfl rfl
  exact hs rfl

theorem tagUri_complete {f : Nat} {full d : Bool} {head v : Text} {start : Mark} (h : Uri full cs v cs') (hn : head = [] → v ≠ []) (hf : cs.length < f) :
    ∃ m', Yields (scanTagUri f full d head start) m cs (upToNul (head.tail ++ v)) m' cs' := by
  obtain ⟨m', h⟩ := uri_complete (d := d) (start := start) (m := m) (s := head.tail) h hf
  unfold scanTagUri
  simp only [y_bind, y_cache1, y_ite, y_err, and_false, false_or, y_pure]
  refine ⟨m', (), _, _, ⟨rfl, rfl⟩, _, _, _, h, ?_, cstr_upToNul.symm, rfl, rfl⟩
  cases head with
  | nil => simp [hn rfl]
  | cons => simp

theorem Spec.Uri.length {full : Bool} {v : Text} (h : Uri full cs v cs') : cs'.length ≤ cs.length := by
  induction h with
  | done => exact Nat.le_refl _
  | char _ _ ih => simp; omega
  | escape _ _ _ _ ih => simp; omega

theorem handle_sound {f : Nat} {d : Bool} {start : Mark} {h : Text} (hf : cs.length < f) (hy : Yields (scanTagHandle f d start) m cs h m' cs') :
    ∃ w, (∀ c ∈ w, Word c) ∧ ((cs = 0x21 :: (w ++ 0x21 :: cs') ∧ h = 0x21 :: (w ++ [0x21])) ∨
      (cs = 0x21 :: (w ++ cs') ∧ h = 0x21 :: w ∧ Heads (fun c => ¬ Word c ∧ c ≠ 0x21) cs' ∧ (d = true → w = []))) := by
  unfold scanTagHandle at hy
  simp only [y_bind, y_cache1, y_peek0, y_ite, y_readC, y_err, and_false, or_false, false_or, y_pure] at hy
  obtain ⟨_, _, _, ⟨rfl, rfl⟩, c, _, _, ⟨r, rfl, rfl, rfl⟩, hc, s, _, _, ⟨_, e, rfl, rfl⟩, _, _, _, ⟨rfl, rfl⟩, t, _, _, h1, c', _, _, ⟨r', rfl, rfl, rfl⟩, h2⟩ := hy
  cases e
  have hc : c = 0x21 := by simpa using hc
  subst hc
  rw [y_words (by simp at hf; omega)] at h1
  obtain ⟨w, rfl, hw, ⟨_, _, e, hn⟩, rfl, rfl⟩ := h1
  cases e
  refine ⟨w, hw, ?_⟩
  rcases h2 with ⟨hb, _, e, rfl, rfl⟩ | ⟨hb, hd, rfl, rfl, rfl⟩
  · cases e
    have hb : c' = 0x21 := by simpa using hb
    subst hb
    exact .inl ⟨rfl, by simp⟩
  · have hb : c' ≠ 0x21 := by simpa using hb
    refine .inr ⟨rfl, rfl, ⟨c', r', rfl, hn, hb⟩, ?_⟩
    rintro rfl
    simpa using hd

theorem handle_named {f : Nat} {d : Bool} {start : Mark} {w : Text} (hf : w.length + cs.length + 1 < f) (hw : ∀ c ∈ w, Word c) :
    ∃ m', Yields (scanTagHandle f d start) m (0x21 :: (w ++ 0x21 :: cs)) (0x21 :: (w ++ [0x21])) m' cs := by
  unfold scanTagHandle
  have hl : (w ++ 0x21 :: cs).length < f := by simp; omega
  simp only [y_bind, y_cache1, y_peek0, y_ite, y_readC, y_err, and_false, or_false, false_or, y_pure]
  refine ⟨(m.step.steps w.length).step, (), _, _, ⟨rfl, rfl⟩, _, _, _, ⟨_, rfl, rfl, rfl⟩, by rfl, _, _, _, ⟨_, rfl, rfl, rfl⟩, (), _, _, ⟨rfl, rfl⟩, 0x21 :: w, m.step.steps w.length, 0x21 :: cs,
    (y_words hl).mpr ⟨w, rfl, hw, ⟨_, _, rfl, by simp [Word]⟩, rfl, rfl⟩, _, _, _, ⟨_, rfl, rfl, rfl⟩, .inl ⟨by rfl, _, rfl, by simp, rfl⟩⟩

theorem handle_bare {f : Nat} {d : Bool} {start : Mark} {w : Text} (hf : w.length + cs.length < f) (hw : ∀ c ∈ w, Word c) (hc : Heads (fun c => ¬ Word c ∧ c ≠ 0x21) cs)
    (hd : d = true → w = []) : ∃ m', Yields (scanTagHandle f d start) m (0x21 :: (w ++ cs)) (0x21 :: w) m' cs := by
  unfold scanTagHandle
  have hl : (w ++ cs).length < f := by simp; omega
  obtain ⟨c, r, rfl, h1, h2⟩ := hc
  simp only [y_bind, y_cache1, y_peek0, y_ite, y_readC, y_err, and_false, or_false, false_or, y_pure]
  refine ⟨m.step.steps w.length, (), _, _, ⟨rfl, rfl⟩, _, _, _, ⟨_, rfl, rfl, rfl⟩, by rfl, _, _, _, ⟨_, rfl, rfl, rfl⟩, (), _, _, ⟨rfl, rfl⟩, 0x21 :: w, m.step.steps w.length, c :: r,
    (y_words hl).mpr ⟨w, rfl, hw, ⟨_, _, rfl, h1⟩, rfl, rfl⟩, c, _, _, ⟨_, rfl, rfl, rfl⟩, .inr ⟨by simpa using h2, ?_, by simp⟩⟩
  simp only [Bool.and_eq_true, Bool.not_eq_true', beq_eq_false_iff_ne, ne_eq, not_and, Decidable.not_not]
  intro e
  rw [hd e]

/-- Does the text look like a named handle? -/
theorem handle_is {w : Text} (hw : ∀ c ∈ w, Word c) :
    ((0x21 :: (w ++ [0x21])).head? == some 0x21 && (0x21 :: (w ++ [0x21])).length != 1 && (0x21 :: (w ++ [0x21])).getLast? == some 0x21) = true ∧
    ((0x21 :: w).head? == some 0x21 && (0x21 :: w).length != 1 && (0x21 :: w).getLast? == some 0x21) = false := by
  constructor
  · simp [List.getLast?_cons]
  · rcases List.eq_nil_or_concat w with rfl | ⟨w', c, rfl⟩
    · simp
    · have : Word c := hw c (by simp)
      have : c ≠ 0x21 := by intro e; subst e; simp [Word] at this
      simp [List.getLast?_cons, this]

theorem tagBody_sound {f : Nat} {start : Mark} {h sfx r : Text} (hf : r.length + 1 < f) (hy : Yields (scanTagBody f start) m (0x21 :: r) (h, sfx) m' cs') :
    TagText (0x21 :: r) h sfx cs' := by
  unfold scanTagBody at hy
  simp only [y_bind, y_cache2, y_peek1, y_ite] at hy
  obtain ⟨_, _, _, ⟨rfl, rfl⟩, c, _, _, ⟨_, r', e, _, rfl, rfl⟩, hy⟩ := hy
  cases e
  rcases hy with ⟨hc, hy⟩ | ⟨hc, h1, m1, cs1, h2, hy⟩
  · have hc : c = 0x3C := by simpa using hc
    subst hc
    simp only [y_skipC, y_peek0, y_err, and_false, or_false, y_pure] at hy
    obtain ⟨_, _, _, ⟨_, e1, rfl⟩, _, _, _, ⟨_, e2, rfl⟩, t, _, _, h1, c, _, _, ⟨r1, rfl, rfl, rfl⟩, hc, _, _, _, ⟨_, e3, rfl⟩, e4, rfl, rfl⟩ := hy
    cases e1; cases e2; cases e3; cases e4
    have hc : c = 0x3E := by simpa using hc
    subst hc
    obtain ⟨v, hv, hn, rfl⟩ := tagUri_sound h1
    exact .verbatim (hn rfl) hv
  · have hc : c ≠ 0x3C := by simpa using hc
    obtain ⟨w, hw, ⟨e, rfl⟩ | ⟨e, rfl, hh, _⟩⟩ := handle_sound (by simpa using hf) h2
    · rcases hy with ⟨_, hy⟩ | ⟨hx, _⟩
      · simp only [y_pure] at hy
        obtain ⟨t, _, _, h3, e4, rfl, rfl⟩ := hy
        cases e4
        obtain ⟨v, hv, hn, rfl⟩ := tagUri_sound h3
        rw [e]
        exact .named w hw (hn rfl) hv
      · exact absurd (handle_is hw).1 hx
    · rcases hy with ⟨hx, _⟩ | ⟨_, hy⟩
      · rw [(handle_is hw).2] at hx; cases hx
      · simp only [y_pure] at hy
        obtain ⟨t, _, _, h3, hy⟩ := hy
        obtain ⟨v, hv, _, rfl⟩ := tagUri_sound h3
        have hlt : w = [] → ¬ Heads (· = 0x3C) cs1 := by
          rintro rfl ⟨x, y, rfl, rfl⟩
          cases e
          exact hc rfl
        rw [e]
        simp only [List.tail_cons] at hy
        rcases hy with ⟨he, e4, rfl, rfl⟩ | ⟨he, e4, rfl, rfl⟩
        · cases e4
          exact .bare w hw hh hlt hv (by simpa using he)
        · cases e4
          exact .primary w hw hh hlt hv (by simpa using he)

/-- A tag that is not verbatim. -/
theorem tagBody_rest {f : Nat} {start : Mark} {h sfx r cs1 : Text} {m1 : Mark} (hz : 0 ∈ r) (hn : ¬ Heads (· = 0x3C) r) (hh : Yields (scanTagHandle f false start) m (0x21 :: r) h m1 cs1)
    (hy : Yields (if h.head? == some (c! '!') && h.length != 1 && h.getLast? == some (c! '!') then do
      let suffix ← scanTagUri f false false [] start
      pure (h, suffix)
    else do
      let suffix ← scanTagUri f false false h start
      if suffix.isEmpty then pure ([], [c! '!']) else pure ([c! '!'], suffix)) m1 cs1 (h', sfx) m' cs') :
    Yields (scanTagBody f start) m (0x21 :: r) (h', sfx) m' cs' := by
  unfold scanTagBody
  rw [y_bind]
  refine ⟨(), m, _, y_cache2.mpr ⟨rfl, rfl⟩, ?_⟩
  cases r with
  | nil => simp at hz
  | cons c r =>
    rw [y_bind]
    refine ⟨c, m, _, y_peek1.mpr ⟨_, r, rfl, by omega, rfl, rfl⟩, ?_⟩
    rw [if_neg (fun hc => hn ⟨c, r, rfl, by simpa using hc⟩), y_bind]
    exact ⟨h, m1, cs1, hh, hy⟩

theorem tagBody_complete {f : Nat} {start : Mark} {h sfx r : Text} (hz : 0 ∈ r) (hf : r.length + 1 < f) (ht : TagText (0x21 :: r) h sfx cs') :
    ∃ m', Yields (scanTagBody f start) m (0x21 :: r) (h, sfx) m' cs' := by
  have word_lt : ∀ {w : Text} {x : Text}, (∀ c ∈ w, Word c) → w ≠ [] → ¬ Heads (· = 0x3C) (w ++ x) := by
    rintro w x hw hn ⟨c, r, e, rfl⟩
    cases w with
    | nil => exact hn rfl
    | cons a w =>
      cases e
      have := hw _ List.mem_cons_self
      simp [Word] at this
  cases ht with
  | verbatim hv h1 =>
    rename_i cs v
    have hl := h1.length
    obtain ⟨m1, h2⟩ := tagUri_complete (f := f) (d := false) (head := []) (start := start) (m := m.step.step) h1 (fun _ => hv) (by simp at hf; omega)
    refine ⟨m1.step, ?_⟩
    unfold scanTagBody
    rw [y_bind]
    refine ⟨(), m, _, y_cache2.mpr ⟨rfl, rfl⟩, ?_⟩
    rw [y_bind]
    refine ⟨0x3C, m, _, y_peek1.mpr ⟨_, _, rfl, by omega, rfl, rfl⟩, ?_⟩
    rw [if_pos (by rfl)]
    simp only [y_bind, y_skipC, y_peek0]
    refine ⟨(), _, _, ⟨_, rfl, rfl⟩, (), _, _, ⟨_, rfl, rfl⟩, _, _, _, h2, 0x3E, _, _, ⟨_, rfl, rfl, rfl⟩, ?_⟩
    rw [if_pos (by rfl)]
    simp only [y_bind, y_skipC, y_pure]
    exact ⟨(), _, _, ⟨_, rfl, rfl⟩, rfl, rfl, rfl⟩
  | named w hw hv h1 =>
    rename_i cs v
    obtain ⟨m1, h2⟩ := handle_named (f := f) (d := false) (start := start) (m := m) (cs := cs) (w := w) (by simp at hf; omega) hw
    obtain ⟨m2, h3⟩ := tagUri_complete (f := f) (d := false) (head := []) (start := start) (m := m1) h1 (fun _ => hv) (by simp at hf; omega)
    refine ⟨m2, tagBody_rest hz ?_ h2 ?_⟩
    · cases w with
      | nil => rintro ⟨c, r, e, rfl⟩; cases e
      | cons a w => exact word_lt hw (by simp)
    · rw [if_pos (handle_is hw).1, y_bind]
      exact ⟨_, _, _, h3, y_pure.mpr ⟨rfl, rfl, rfl⟩⟩
  | primary w hw hh hlt h1 hv =>
    rename_i cs v
    obtain ⟨m1, h2⟩ := handle_bare (f := f) (d := false) (start := start) (m := m) (cs := cs) (w := w) (by simp at hf; omega) hw hh (by simp)
    obtain ⟨m2, h3⟩ := tagUri_complete (f := f) (d := false) (head := 0x21 :: w) (start := start) (m := m1) h1 (by simp) (by simp at hf; omega)
    refine ⟨m2, tagBody_rest hz ?_ h2 ?_⟩
    · cases w with
      | nil => exact hlt rfl
      | cons a w => exact word_lt hw (by simp)
    · rw [if_neg (by rw [(handle_is hw).2]; simp), y_bind]
      refine ⟨_, _, _, h3, ?_⟩
      rw [if_neg (by simpa using hv), y_pure]
      exact ⟨rfl, rfl, rfl⟩
  | bare w hw hh hlt h1 hv =>
    rename_i cs v
    obtain ⟨m1, h2⟩ := handle_bare (f := f) (d := false) (start := start) (m := m) (cs := cs) (w := w) (by simp at hf; omega) hw hh (by simp)
    obtain ⟨m2, h3⟩ := tagUri_complete (f := f) (d := false) (head := 0x21 :: w) (start := start) (m := m1) h1 (by simp) (by simp at hf; omega)
    refine ⟨m2, tagBody_rest hz ?_ h2 ?_⟩
    · cases w with
      | nil => exact hlt rfl
      | cons a w => exact word_lt hw (by simp)
    · rw [if_neg (by rw [(handle_is hw).2]; simp), y_bind]
      refine ⟨_, _, _, h3, ?_⟩
      rw [if_pos (by simpa using hv), y_pure]
      exact ⟨rfl, rfl, rfl⟩

theorem scanTag_sound {f : Nat} {flow : Bool} {t : Token} (hf : cs.length + 1 < f) (h : Yields (scanTag f flow) m (0x21 :: cs) t m' cs') :
    t.start = m ∧ t.stop = m' ∧ ∃ h v, TagAt flow (0x21 :: cs) h v cs' ∧ t.data = .tag h v := by
  unfold scanTag at h
  have hend : ∀ {c : Nat}, (isBlankz c || (flow && c == 0x2C)) = true ↔ White c ∨ (flow = true ∧ c = 0x2C) := by simp [white_iff]
  simp only [y_bind, y_get, y_cache1, y_peek0, y_ite, y_pure, y_err, and_false, or_false] at h
  obtain ⟨_, _, _, ⟨rfl, rfl, rfl⟩, ⟨hd, sfx⟩, _, _, h1, _, _, _, ⟨rfl, rfl⟩, c, _, _, ⟨r, rfl, rfl, rfl⟩, hc, _, _, _, ⟨rfl, rfl, rfl⟩, h2, rfl, rfl⟩ := h
  cases h2
  exact ⟨rfl, rfl, _, _, ⟨tagBody_sound hf h1, c, r, rfl, hend.mp hc⟩, rfl⟩

theorem scanTag_iff {f : Nat} {flow : Bool} {t : TokData} (hz : 0 ∈ cs) (hf : cs.length + 1 < f) :
    (∃ a b m', Yields (scanTag f flow) m (0x21 :: cs) { data := t, start := a, stop := b } m' cs') ↔
      ∃ h v, TagAt flow (0x21 :: cs) h v cs' ∧ t = .tag h v := by
  have hend : ∀ {c : Nat}, (isBlankz c || (flow && c == 0x2C)) = true ↔ White c ∨ (flow = true ∧ c = 0x2C) := by simp [white_iff]
  constructor
  · rintro ⟨a, b, m', h⟩
    exact (scanTag_sound hf h).2.2
  · unfold scanTag
    rintro ⟨h, v, ⟨ht, c, r, rfl, hc⟩, rfl⟩
    obtain ⟨m1, h1⟩ := tagBody_complete (m := m) (start := m) hz hf ht
    refine ⟨m, m1, m1, ?_⟩
    simp only [y_bind, y_get, y_cache1, y_peek0, y_ite, y_pure, y_err, and_false, or_false]
    exact ⟨m, m, _, ⟨rfl, rfl, rfl⟩, (h, v), _, _, h1, (), _, _, ⟨rfl, rfl⟩, c, _, _, ⟨r, rfl, rfl, rfl⟩, hend.mpr hc, _, _, _, ⟨rfl, rfl, rfl⟩, rfl, rfl, rfl⟩

/-! ### Directives -/

theorem digit_iff {c : Nat} : isDigit c = true ↔ 0x30 ≤ c ∧ c ≤ 0x39 := by
  simp [isDigit]

theorem number_sound {start : Mark} {n value len v : Nat} (hl : len ≤ 9) (h : Yields (scanVersionNumber start n value len) m cs v m' cs') :
    ∃ ds, cs = ds ++ cs' ∧ Decimal value ds v ∧ len + ds.length ≤ 9 ∧ 1 ≤ len + ds.length ∧ Heads (fun c => ¬ (0x30 ≤ c ∧ c ≤ 0x39)) cs' := by
  induction n generalizing m cs value len with
  | zero => cases h
  | succ n ih =>
    unfold scanVersionNumber at h
    simp only [y_bind, y_peek0, y_ite, y_skipC, y_cache1, y_err, and_false, false_or, y_pure] at h
    obtain ⟨c, _, _, ⟨r, rfl, rfl, rfl⟩, ⟨hc, hlen, _, _, _, ⟨_, e, rfl⟩, _, _, _, ⟨rfl, rfl⟩, h⟩ | ⟨hc, hlen, rfl, rfl, rfl⟩⟩ := h
    · cases e
      rw [digit_iff] at hc
      obtain ⟨ds, rfl, h1, h2, h3, h4⟩ := ih (by omega) h
      refine ⟨c :: ds, rfl, ?_, by simp; omega, by simp; omega, h4⟩
      have := Decimal.cons (v := value) (d := c - 0x30) (by omega) h1
      rwa [show 0x30 + (c - 0x30) = c by omega] at this
    · rw [digit_iff] at hc
      exact ⟨[], rfl, .nil _, by simpa using hl, by simp; omega, c, r, rfl, hc⟩

theorem number_complete {start : Mark} {n value len v : Nat} {ds : List Nat} (h : Decimal value ds v) (hl : len + ds.length ≤ 9) (h1 : 1 ≤ len + ds.length) (hn : ds.length < n)
    (hc : Heads (fun c => ¬ (0x30 ≤ c ∧ c ≤ 0x39)) cs) : ∃ m', Yields (scanVersionNumber start n value len) m (ds ++ cs) v m' cs := by
  induction h generalizing m n len with
  | nil v =>
    obtain ⟨n, rfl⟩ : ∃ k, n = k + 1 := ⟨n - 1, by omega⟩
    obtain ⟨c, r, rfl, hc⟩ := hc
    unfold scanVersionNumber
    simp only [y_bind, y_peek0, y_ite, y_skipC, y_cache1, y_err, and_false, false_or, y_pure]
    exact ⟨m, c, _, _, ⟨r, rfl, rfl, rfl⟩, .inr ⟨by rwa [digit_iff], by simp at h1; omega, trivial, rfl, rfl⟩⟩
  | cons hd _ ih =>
    rename_i v d ds w _
    obtain ⟨n, rfl⟩ : ∃ k, n = k + 1 := ⟨n - 1, by omega⟩
    simp only [List.length_cons] at hl hn
    obtain ⟨m', h⟩ := ih (m := m.step) (n := n) (len := len + 1) (by omega) (by omega) (by omega)
    unfold scanVersionNumber
    simp only [y_bind, y_peek0, y_ite, y_skipC, y_cache1, y_err, and_false, false_or, y_pure]
    refine ⟨m', _, _, _, ⟨_, rfl, rfl, rfl⟩, .inl ⟨by rw [digit_iff]; omega, by omega, (), _, _, ⟨_, rfl, rfl⟩, (), _, _, ⟨rfl, rfl⟩, ?_⟩⟩
    rw [show asDigit (0x30 + d) = d by simp [asDigit]]
    exact h

theorem y_name {f : Nat} {start : Mark} {t : Text} (hf : cs.length < f) : Yields (scanDirectiveName f start) m cs t m' cs' ↔
    cs = t ++ cs' ∧ t ≠ [] ∧ (∀ c ∈ t, Word c) ∧ Heads (fun c => ¬ Word c ∧ White c) cs' ∧ m' = m.steps t.length := by
  unfold scanDirectiveName
  simp only [y_bind, y_cache1, y_ite, y_err, and_false, false_or, or_false, y_peek0, y_pure]
  constructor
  · rintro ⟨_, _, _, ⟨rfl, rfl⟩, s, _, _, h, hs, c, _, _, ⟨r, rfl, rfl, rfl⟩, hc, rfl, rfl, rfl⟩
    rw [y_words hf] at h
    obtain ⟨_, rfl, hw, ⟨_, _, e, hn⟩, rfl, rfl⟩ := h
    cases e
    exact ⟨rfl, by simpa using hs, hw, ⟨c, r, rfl, hn, white_iff.mp hc⟩, rfl⟩
  · rintro ⟨rfl, hn, hw, ⟨c, r, rfl, hc, hc'⟩, rfl⟩
    exact ⟨(), _, _, ⟨rfl, rfl⟩, t, _, _, (y_words hf).mpr ⟨t, rfl, hw, ⟨c, r, rfl, hc⟩, rfl, rfl⟩, by simpa using hn, c, _, _, ⟨r, rfl, rfl, rfl⟩, white_iff.mpr hc', rfl, rfl, rfl⟩

theorem version_sound {f : Nat} {start : Mark} {v : Version} (hf : cs.length < f) (h : Yields (scanVersionValue f start) m cs v m' cs') :
    ∃ ws a b, cs = ws ++ (a ++ 0x2E :: (b ++ cs')) ∧ (∀ x ∈ ws, Blank x) ∧ Number a v.major ∧ Number b v.minor ∧ Heads (fun c => ¬ (0x30 ≤ c ∧ c ≤ 0x39)) cs' := by
  unfold scanVersionValue at h
  simp only [y_bind, y_cache1, y_ite, y_err, and_false, or_false, y_peek0, y_pure, y_skipC] at h
  obtain ⟨_, _, _, ⟨rfl, rfl⟩, _, _, cs1, h, _, _, _, ⟨rfl, rfl⟩, a, _, _, h1, c, _, _, ⟨r, rfl, rfl, rfl⟩, hc, _, _, _, ⟨_, e, rfl⟩, _, _, _, ⟨rfl, rfl⟩, b, _, _, h2, rfl, rfl, rfl⟩ := h
  cases e
  rw [y_blanks hf] at h
  obtain ⟨ws, rfl, hws, _, rfl⟩ := h
  have hc : c = 0x2E := by simpa using hc
  subst hc
  obtain ⟨da, rfl, a1, a2, a3, _⟩ := number_sound (by omega) h1
  obtain ⟨db, rfl, b1, b2, b3, b4⟩ := number_sound (by omega) h2
  exact ⟨ws, da, db, rfl, hws, ⟨a1, by omega, by omega⟩, ⟨b1, by omega, by omega⟩, b4⟩

theorem number_head {a : List Nat} {v : Nat} {x : List Nat} (h : Number a v) : ∃ c r, a ++ x = c :: r ∧ 0x30 ≤ c ∧ c ≤ 0x39 := by
  obtain ⟨h, h1, _⟩ := h
  cases h with
  | nil => simp at h1
  | cons hd _ => exact ⟨_, _, rfl, by omega, by omega⟩

theorem version_complete {f : Nat} {start : Mark} {v : Version} {ws a b : Text} (hf : (ws ++ (a ++ 0x2E :: (b ++ cs))).length < f) (hws : ∀ x ∈ ws, Blank x)
    (ha : Number a v.major) (hb : Number b v.minor) (hc : Heads (fun c => ¬ (0x30 ≤ c ∧ c ≤ 0x39)) cs) :
    ∃ m', Yields (scanVersionValue f start) m (ws ++ (a ++ 0x2E :: (b ++ cs))) v m' cs := by
  obtain ⟨ca, ra, ea, hca⟩ := number_head (x := 0x2E :: (b ++ cs)) ha
  have hl := hf
  simp at hl
  obtain ⟨m1, h1⟩ := number_complete (start := start) (n := f) (len := 0) (m := m.steps ws.length) ha.1 (by have := ha.2.2; omega) (by have := ha.2.1; omega) (by omega) (cs := 0x2E :: (b ++ cs)) ⟨_, _, rfl, by omega⟩
  obtain ⟨m2, h2⟩ := number_complete (start := start) (n := f) (len := 0) (m := m1.step) hb.1 (by have := hb.2.2; omega) (by have := hb.2.1; omega) (by omega) hc
  unfold scanVersionValue
  refine ⟨m2, ?_⟩
  simp only [y_bind, y_cache1, y_ite, y_err, and_false, or_false, y_peek0, y_pure, y_skipC]
  exact ⟨(), _, _, ⟨rfl, rfl⟩, (), _, _, (y_blanks hf).mpr ⟨ws, rfl, hws, ⟨ca, ra, ea, by simp [Blank]; omega⟩, rfl⟩, (), _, _, ⟨rfl, rfl⟩, _, _, _, h1, 0x2E, _, _, ⟨_, rfl, rfl, rfl⟩, by rfl,
    (), _, _, ⟨_, rfl, rfl⟩, (), _, _, ⟨rfl, rfl⟩, _, _, _, h2, rfl, rfl, rfl⟩

theorem tagDir_sound {f : Nat} {start : Mark} {d : TagDir} (hf : cs.length < f) (h : Yields (scanTagDirValue f start) m cs d m' cs') :
    ∃ ws ws' cs1 v, cs = ws ++ (d.handle ++ (ws' ++ cs1)) ∧ (∀ x ∈ ws, Blank x) ∧ Handle d.handle ∧ ws' ≠ [] ∧ (∀ x ∈ ws', Blank x) ∧ Heads (fun c => ¬ Blank c) cs1 ∧ v ≠ [] ∧
      Uri true cs1 v cs' ∧ d.pfx = upToNul v ∧ Heads White cs' := by
  unfold scanTagDirValue at h
  simp only [y_bind, y_cache1, y_ite, y_err, and_false, or_false, y_peek0, y_pure] at h
  obtain ⟨_, _, _, ⟨rfl, rfl⟩, _, _, cs1, h, hd, _, _, h1, _, _, cs2, ⟨rfl, rfl⟩, c, _, _, ⟨r, rfl, rfl, rfl⟩, hc, _, _, cs3, h2, pf, _, _, h3, _, _, _, ⟨rfl, rfl⟩, c', _, _, ⟨r', rfl, rfl, rfl⟩, hc', rfl, rfl, rfl⟩ := h
  rw [y_blanks hf] at h
  obtain ⟨ws, rfl, hws, _, rfl⟩ := h
  have hlen : (c :: r).length ≤ cs1.length ∧ Handle hd ∧ cs1 = hd ++ c :: r := by
    obtain ⟨w, hw, ⟨rfl, rfl⟩ | ⟨rfl, rfl, _, hx⟩⟩ := handle_sound (by simp at hf; omega) h1
    · exact ⟨by simp; omega, .inr ⟨w, rfl, hw⟩, by simp⟩
    · rw [hx rfl]
      exact ⟨by simp, .inl rfl, rfl⟩
  obtain ⟨hlen, hh, rfl⟩ := hlen
  rw [y_blanks (by simp at hf hlen ⊢; omega)] at h2
  obtain ⟨ws', e, hws', hn, rfl⟩ := h2
  obtain ⟨v, hv, hne, rfl⟩ := tagUri_sound h3
  refine ⟨ws, ws', cs3, v, by rw [e], hws, hh, ?_, hws', hn, hne rfl, hv, rfl, c', r', rfl, white_iff.mp hc'⟩
  rintro rfl
  obtain ⟨x, y, rfl, hx⟩ := hn
  cases e
  exact hx (blank_iff.mp hc)

theorem blank_word {c : Nat} (h : Blank c) : ¬ Word c ∧ c ≠ 0x21 := by
  rcases h with rfl | rfl <;> simp [Word]

theorem tagDir_complete {f : Nat} {start : Mark} {ws h ws' cs1 v : Text} (hf : (ws ++ (h ++ (ws' ++ cs1))).length < f) (hws : ∀ x ∈ ws, Blank x) (hh : Handle h) (hn : ws' ≠ [])
    (hws' : ∀ x ∈ ws', Blank x) (hc : Heads (fun c => ¬ Blank c) cs1) (hv : v ≠ []) (hu : Uri true cs1 v cs') (hw : Heads White cs') :
    ∃ m', Yields (scanTagDirValue f start) m (ws ++ (h ++ (ws' ++ cs1))) { handle := h, pfx := upToNul v } m' cs' := by
  have hl := hf
  simp at hl
  obtain ⟨b, bs, e⟩ : ∃ b bs, ws' = b :: bs := by cases ws' with | nil => exact absurd rfl hn | cons b bs => exact ⟨b, bs, rfl⟩
  have hb : Blank b := hws' b (by rw [e]; simp)
  have hhd : ∃ m1, Yields (scanTagHandle f true start) (m.steps ws.length) (h ++ (ws' ++ cs1)) h m1 (ws' ++ cs1) := by
    rcases hh with rfl | ⟨w, rfl, hw⟩
    · exact handle_bare (w := []) (by simp at hl ⊢; omega) (by simp) ⟨b, bs ++ cs1, by rw [e]; rfl, blank_word hb⟩ (by simp)
    · have := handle_named (f := f) (d := true) (start := start) (m := m.steps ws.length) (cs := ws' ++ cs1) (w := w) (by simp at hl ⊢; omega) hw
      simpa using this
  have hhead : ∃ r, h ++ (ws' ++ cs1) = 0x21 :: r := by
    rcases hh with rfl | ⟨w, rfl, hw⟩ <;> exact ⟨_, rfl⟩
  obtain ⟨hr, hhead⟩ := hhead
  obtain ⟨m1, h1⟩ := hhd
  obtain ⟨m2, h2⟩ := tagUri_complete (f := f) (d := true) (head := []) (start := start) (m := m1.steps ws'.length) hu (fun _ => hv) (by omega)
  obtain ⟨c, r, rfl, hwc⟩ := hw
  unfold scanTagDirValue
  refine ⟨m2, ?_⟩
  simp only [y_bind, y_cache1, y_ite, y_err, and_false, or_false, y_peek0, y_pure]
  exact ⟨(), _, _, ⟨rfl, rfl⟩, (), _, _, (y_blanks hf).mpr ⟨ws, rfl, hws, ⟨_, _, hhead, by simp [Blank]⟩, rfl⟩, h, m1, _, h1, (), _, _, ⟨rfl, rfl⟩, b, _, _, ⟨bs ++ cs1, by rw [e]; rfl, rfl, rfl⟩, blank_iff.mpr hb,
    (), _, _, (y_blanks (by simp; omega)).mpr ⟨ws', rfl, hws', hc, rfl⟩, _, _, _, h2, (), _, _, ⟨rfl, rfl⟩, c, _, _, ⟨r, rfl, rfl, rfl⟩, white_iff.mpr hwc, rfl, rfl, rfl⟩

theorem lit_yaml : lit ['Y', 'A', 'M', 'L'] = [0x59, 0x41, 0x4D, 0x4C] := by decide
theorem lit_tag : lit ['T', 'A', 'G'] = [0x54, 0x41, 0x47] := by decide

theorem scanDirective_sound {f : Nat} {q : Nat} {t : TokData} {a b : Mark} (hf : cs.length < f)
    (h : Yields (scanDirective f) m (q :: cs) { data := t, start := a, stop := b } m' cs') :
    ∃ mid, ((∃ j k, VersionAt cs j k mid cs' ∧ t = .versionDirective ⟨j, k⟩) ∨ (∃ h p, TagDirAt cs h p mid cs' ∧ t = .tagDirective ⟨h, p⟩)) ∧
      b.index + mid.length = m.index + (cs.length + 1) := by
  unfold scanDirective at h
  simp only [y_bind, y_get, y_skipC] at h
  obtain ⟨_, _, _, ⟨rfl, rfl, rfl⟩, _, _, _, ⟨_, e, rfl⟩, name, _, cs1, hname, h⟩ := h
  cases e
  have kn := tracks_directiveName _ _ _ _ _ hname
  rw [y_name hf] at hname
  obtain ⟨rfl, hne, hw, ⟨c, r, rfl, hc, hc'⟩, rfl⟩ := hname
  have hl : (c :: r).length < f := by simp at hf ⊢; omega
  rw [lit_yaml, lit_tag] at h
  simp only [y_ite, y_bind, y_get, y_err, and_false, or_false, y_pure] at h
  rcases h with ⟨hn, ⟨j, k⟩, _, _, h1, _, _, cs2, ⟨rfl, rfl, rfl⟩, _, _, _, h2, e, rfl, rfl⟩ | ⟨_, hn, ⟨hd, p⟩, _, _, h1, _, _, cs2, ⟨rfl, rfl, rfl⟩, _, _, _, h2, e, rfl, rfl⟩
  · have kv := tracks_versionValue _ _ _ _ _ h1
    cases e
    refine ⟨cs2, .inl ?_, by simp at kn kv ⊢; omega⟩
    have hn : name = [0x59, 0x41, 0x4D, 0x4C] := by simpa using hn
    subst hn
    obtain ⟨ws, da, db, e, hws, ha, hb, hd⟩ := version_sound hl h1
    have hl2 : cs2.length < f := by have := congrArg List.length e; simp at this hl; omega
    obtain ⟨eof, he, _⟩ := finishLine_sound hl2 h2
    refine ⟨j, k, ?_, rfl⟩
    rw [e]
    refine .mk ws da db ?_ hws ha hb hd he
    rintro rfl
    obtain ⟨x, y, e', hx⟩ := number_head (x := 0x2E :: (db ++ cs2)) ha
    rw [List.nil_append, e'] at e
    cases e
    simp [Word] at hc
    omega
  · have kv := tracks_tagDirValue _ _ _ _ _ h1
    cases e
    refine ⟨cs2, .inr ?_, by simp at kn kv ⊢; omega⟩
    have hn : name = [0x54, 0x41, 0x47] := by simpa using hn
    subst hn
    obtain ⟨ws, ws', cs3, v, e, hws, hh, hne', hws', hnb, hv, hu, rfl, hwh⟩ := tagDir_sound hl h1
    have hul := hu.length
    have hl2 : cs2.length < f := by have := congrArg List.length e; simp at this hl; omega
    obtain ⟨eof, he, _⟩ := finishLine_sound hl2 h2
    refine ⟨hd, _, ?_, rfl⟩
    rw [e]
    refine .mk ws hd ws' ?_ hws hh hne' hws' hnb hv hu hwh he
    rintro rfl
    have : ∃ y, hd ++ (ws' ++ cs3) = 0x21 :: y := by rcases hh with rfl | ⟨w, rfl, _⟩ <;> exact ⟨_, rfl⟩
    obtain ⟨y, e'⟩ := this
    rw [List.nil_append] at e
    dsimp only at e
    rw [e'] at e
    cases e
    simp [White, Blank, Brk] at hc'

theorem blanks_head {ws x : Text} (hn : ws ≠ []) (h : ∀ c ∈ ws, Blank c) : Heads (fun c => ¬ Word c ∧ White c) (ws ++ x) := by
  cases ws with
  | nil => exact absurd rfl hn
  | cons c ws => exact ⟨c, ws ++ x, rfl, (blank_word (h c (by simp))).1, .inl (h c (by simp))⟩

theorem scanDirective_version {f : Nat} {q j k : Nat} {mid : Text} (hf : cs.length < f) (h : VersionAt cs j k mid cs') :
    ∃ a b m', Yields (scanDirective f) m (q :: cs) { data := .versionDirective ⟨j, k⟩, start := a, stop := b } m' cs' ∧
      b.index + mid.length = m.index + (cs.length + 1) := by
  cases h with
  | mk ws da db hn hws ha hb hc he =>
    rename_i eof
    have hl := hf
    simp at hl
    obtain ⟨m1, h1⟩ := version_complete (f := f) (start := m) (m := m.step.steps 4) (v := ⟨j, k⟩) (by simp; omega) hws ha hb hc
    obtain ⟨m2, h2, _⟩ := finishLine_complete (f := f) (ctx := "while scanning a directive") (start := m) (m := m1) (by omega) he
    refine ⟨m, m1, m2, ?_, by have := tracks_versionValue _ _ _ _ _ h1; simp at this ⊢; omega⟩
    unfold scanDirective
    simp only [y_bind, y_get, y_skipC]
    refine ⟨m, m, _, ⟨rfl, rfl, rfl⟩, (), _, _, ⟨_, rfl, rfl⟩, [0x59, 0x41, 0x4D, 0x4C], m.step.steps 4, ws ++ (da ++ 0x2E :: (db ++ mid)), (y_name hf).mpr ⟨rfl, by simp, by simp [Word], blanks_head hn hws, rfl⟩, ?_⟩
    rw [lit_yaml, if_pos (by rfl)]
    simp only [y_bind, y_get, y_pure]
    exact ⟨_, _, _, h1, m1, _, _, ⟨rfl, rfl, rfl⟩, (), _, _, h2, rfl, rfl, rfl⟩

theorem scanDirective_tag {f : Nat} {q : Nat} {h p mid : Text} (hf : cs.length < f) (hd : TagDirAt cs h p mid cs') :
    ∃ a b m', Yields (scanDirective f) m (q :: cs) { data := .tagDirective ⟨h, p⟩, start := a, stop := b } m' cs' ∧
      b.index + mid.length = m.index + (cs.length + 1) := by
  cases hd with
  | mk ws _ ws' hn hws hh hn' hws' hnb hv hu hwh he =>
    rename_i cs1 v eof
    have hl := hf
    have hul := hu.length
    simp at hl
    obtain ⟨m1, h1⟩ := tagDir_complete (f := f) (start := m) (m := m.step.steps 3) (by simp; omega) hws hh hn' hws' hnb hv hu hwh
    obtain ⟨m2, h2, _⟩ := finishLine_complete (f := f) (ctx := "while scanning a directive") (start := m) (m := m1) (by omega) he
    refine ⟨m, m1, m2, ?_, by have := tracks_tagDirValue _ _ _ _ _ h1; simp at this ⊢; omega⟩
    unfold scanDirective
    simp only [y_bind, y_get, y_skipC]
    refine ⟨m, m, _, ⟨rfl, rfl, rfl⟩, (), _, _, ⟨_, rfl, rfl⟩, [0x54, 0x41, 0x47], m.step.steps 3, ws ++ (h ++ (ws' ++ cs1)), (y_name hf).mpr ⟨rfl, by simp, by simp [Word], blanks_head hn hws, rfl⟩, ?_⟩
    rw [lit_yaml, lit_tag, if_neg (by simp), if_pos (by rfl)]
    simp only [y_bind, y_get, y_pure]
    exact ⟨_, _, _, h1, m1, _, _, ⟨rfl, rfl, rfl⟩, (), _, _, h2, rfl, rfl, rfl⟩

theorem scanDirective_iff {f : Nat} {q : Nat} {t : TokData} (hf : cs.length < f) :
    (∃ a b m', Yields (scanDirective f) m (q :: cs) { data := t, start := a, stop := b } m' cs') ↔
    (∃ j k mid, VersionAt cs j k mid cs' ∧ t = .versionDirective ⟨j, k⟩) ∨ (∃ h p mid, TagDirAt cs h p mid cs' ∧ t = .tagDirective ⟨h, p⟩) := by
  constructor
  · rintro ⟨a, b, m', h⟩
    obtain ⟨mid, ⟨j, k, h1, h2⟩ | ⟨h', p, h1, h2⟩, _⟩ := scanDirective_sound hf h
    · exact .inl ⟨j, k, mid, h1, h2⟩
    · exact .inr ⟨h', p, mid, h1, h2⟩
  · rintro (⟨j, k, mid, h, rfl⟩ | ⟨h, p, mid, h', rfl⟩)
    · obtain ⟨a, b, m', h1, _⟩ := scanDirective_version hf h
      exact ⟨a, b, m', h1⟩
    · obtain ⟨a, b, m', h1, _⟩ := scanDirective_tag hf h'
      exact ⟨a, b, m', h1⟩

/-! ### Between tokens -/

theorem bom_iff {c : Nat} : isBom c = true ↔ c = 0xFEFF := by simp [isBom]

theorem y_skipBom : Yields skipBom m cs u m' cs' ↔
    (∃ bom, cs = bom ++ cs' ∧ bom = [0xFEFF] ∧ m.column = 0 ∧ m' = m.step) ∨ ((m.column = 0 → Heads (· ≠ 0xFEFF) cs) ∧ m' = m ∧ cs' = cs) := by
  unfold skipBom
  simp only [y_bind, y_get, y_ite, y_peek0, y_pure, y_skipC, bom_iff]
  constructor
  · rintro ⟨_, _, _, ⟨rfl, rfl, rfl⟩, ⟨h0, c, _, _, ⟨r, rfl, rfl, rfl⟩, ⟨rfl, _, e, rfl⟩ | ⟨hc, _, rfl, rfl⟩⟩ | ⟨h0, _, rfl, rfl⟩⟩
    · cases e
      exact .inl ⟨_, rfl, rfl, h0, rfl⟩
    · exact .inr ⟨fun _ => ⟨c, r, rfl, hc⟩, rfl, rfl⟩
    · exact .inr ⟨fun h => absurd h h0, rfl, rfl⟩
  · rintro (⟨_, rfl, rfl, h0, rfl⟩ | ⟨h, rfl, rfl⟩)
    · exact ⟨m, m, _, ⟨rfl, rfl, rfl⟩, .inl ⟨h0, _, _, _, ⟨cs', rfl, rfl, rfl⟩, .inl ⟨rfl, _, rfl, rfl⟩⟩⟩
    · by_cases h0 : m'.column = 0
      · obtain ⟨c, r, rfl, hc⟩ := h h0
        exact ⟨_, _, _, ⟨rfl, rfl, rfl⟩, .inl ⟨h0, c, _, _, ⟨r, rfl, rfl, rfl⟩, .inr ⟨hc, trivial, rfl, rfl⟩⟩⟩
      · exact ⟨_, _, _, ⟨rfl, rfl, rfl⟩, .inr ⟨h0, trivial, rfl, rfl⟩⟩

/-- The first line: byte order mark, blanks, comment. -/
def marginOf (tabs : Bool) (f : Nat) : Lex Unit := do
  skipBom
  cacheC 1
  skipWhile (fun c => isSpace c || (tabs && isTab c)) f
  skipComment f

theorem scanToNext_margin {flow allowed : Bool} {f n : Nat} {b : Bool} : Yields (scanToNext flow f (n + 1) allowed) m cs b m' cs' ↔
    ∃ m1 cs1, Yields (marginOf (flow || !allowed) f) m cs () m1 cs1 ∧ ∃ c r, cs1 = c :: r ∧
      ((Brk c ∧ ∃ b1 m2 cs2, BreakAt cs1 b1 cs2 ∧ m2.column = 0 ∧ m2 = m1.newline (cs1.length - cs2.length) ∧ Yields (scanToNext flow f n (allowed || !flow)) m2 cs2 b m' cs') ∨
       (¬ Brk c ∧ b = allowed ∧ m' = m1 ∧ cs' = cs1)) := by
  rw [scanToNext]
  unfold marginOf
  simp only [y_bind, y_cache1, y_cache2, y_peek0, y_ite, y_skipLine, y_pure, brk_iff]
  have hk : (if flow = true then allowed else true) = (allowed || !flow) := by cases flow <;> cases allowed <;> rfl
  rw [hk]
  constructor
  · rintro ⟨_, _, _, ⟨rfl, rfl⟩, _, _, _, h1, _, _, _, ⟨rfl, rfl⟩, _, _, _, h2, _, _, _, h3, c, _, _, ⟨r, rfl, rfl, rfl⟩, h⟩
    refine ⟨_, _, ⟨_, _, _, h1, (), _, _, ⟨rfl, rfl⟩, _, _, _, h2, h3⟩, c, r, rfl, ?_⟩
    rcases h with ⟨hb, _, _, _, ⟨rfl, rfl⟩, _, _, _, ⟨b1, hb1, rfl⟩ | ⟨⟨_, _, e, hx⟩, _⟩, h⟩ | ⟨hb, h⟩
    · exact .inl ⟨hb, b1, _, _, hb1, rfl, rfl, h⟩
    · cases e; exact absurd hb hx
    · exact .inr ⟨hb, h⟩
  · rintro ⟨m1, cs1, ⟨_, _, _, h1, _, _, _, ⟨rfl, rfl⟩, _, _, _, h2, h3⟩, c, r, rfl, h⟩
    refine ⟨(), _, _, ⟨rfl, rfl⟩, _, _, _, h1, (), _, _, ⟨rfl, rfl⟩, _, _, _, h2, _, _, _, h3, c, _, _, ⟨r, rfl, rfl, rfl⟩, ?_⟩
    rcases h with ⟨hb, b1, m2, cs2, hb1, _, rfl, h⟩ | ⟨hb, h⟩
    · exact .inl ⟨hb, (), _, _, ⟨rfl, rfl⟩, (), _, _, .inl ⟨b1, hb1, rfl⟩, h⟩
    · exact .inr ⟨hb, h⟩

theorem gapChar {tabs : Bool} {c : Nat} : (isSpace c || (tabs && isTab c)) = true ↔ c = 0x20 ∨ (tabs = true ∧ c = 0x9) := by
  simp [isSpace, isTab]

theorem gapStop {tabs : Bool} {c : Nat} : (isSpace c || (tabs && isTab c)) = false ↔ c ≠ 0x20 ∧ (tabs = true → c ≠ 0x9) := by
  rw [← Bool.not_eq_true, gapChar]
  simp

theorem margin_sound {tabs : Bool} {f : Nat} (hf : cs.length < f) (h : Yields (marginOf tabs f) m cs u m' cs') : Margin tabs m.column cs cs' := by
  unfold marginOf at h
  simp only [y_bind, y_cache1, y_skipBom] at h
  obtain ⟨_, _, _, h1, _, m1, cs1, ⟨rfl, rfl⟩, _, m2, cs2, h2, h3⟩ := h
  have hbom : ∃ bom, cs = bom ++ cs1 ∧ (bom = [] ∨ (m.column = 0 ∧ bom = [0xFEFF])) ∧ (bom = [] → m.column = 0 → ¬ Heads (· = 0xFEFF) cs1) := by
    rcases h1 with ⟨bom, e, rfl, h0, _⟩ | ⟨hn, _, rfl⟩
    · exact ⟨_, e, .inr ⟨h0, rfl⟩, fun h => by cases h⟩
    · refine ⟨[], rfl, .inl rfl, ?_⟩
      rintro _ h0 ⟨c, r, e, rfl⟩
      obtain ⟨_, _, e', hx⟩ := hn h0
      rw [e] at e'
      cases e'
      exact hx rfl
  obtain ⟨bom, rfl, hb1, hb2⟩ := hbom
  rw [y_skipWhile (by simp at hf; omega)] at h2
  obtain ⟨ws, rfl, hws, ⟨c, r, rfl, hc⟩, rfl⟩ := h2
  have hws : ∀ x ∈ ws, x = 0x20 ∨ (tabs = true ∧ x = 0x9) := fun x hx => gapChar.mp (hws x hx)
  rw [gapStop] at hc
  rw [y_skipComment (by simp at hf ⊢; omega)] at h3
  rcases h3 with ⟨com, e, hc1, hc2, hc3, rfl⟩ | ⟨⟨_, _, e, hx⟩, rfl, rfl⟩
  · rw [e] at hb2 ⊢
    exact .mk bom ws com cs' hb1 hb2 hws (.inr ⟨hc1, hc2, hc3⟩)
  · cases e
    exact .mk bom ws [] (c :: r) hb1 hb2 hws (.inl ⟨rfl, c, r, rfl, hc.1, hc.2, hx⟩)

theorem heads_ne {p : Nat → Prop} (h : ¬ Heads p cs) (hn : cs ≠ []) : Heads (fun c => ¬ p c) cs := by
  cases cs with
  | nil => exact absurd rfl hn
  | cons c r => exact ⟨c, r, rfl, fun hp => h ⟨c, r, rfl, hp⟩⟩

theorem margin_complete {tabs : Bool} {f : Nat} (hf : cs.length < f) (h : Margin tabs m.column cs cs') : ∃ m', Yields (marginOf tabs f) m cs () m' cs' := by
  cases h with
  | mk bom ws com _ h1 h2 h3 h4 =>
    have hne : ws ++ (com ++ cs') ≠ [] := by
      rcases h4 with ⟨_, c, r, rfl, _⟩ | ⟨_, _, c, r, rfl, _⟩ <;> simp
    have hb : ∃ m1, Yields skipBom m (bom ++ (ws ++ (com ++ cs'))) () m1 (ws ++ (com ++ cs')) := by
      rcases h1 with rfl | ⟨h0, rfl⟩
      · exact ⟨m, y_skipBom.mpr (.inr ⟨fun h0 => heads_ne (h2 rfl h0) hne, rfl, rfl⟩)⟩
      · exact ⟨m.step, y_skipBom.mpr (.inl ⟨_, rfl, rfl, h0, rfl⟩)⟩
    obtain ⟨m1, hb⟩ := hb
    have hl : (ws ++ (com ++ cs')).length < f := by simp at hf ⊢; omega
    have hl' : (com ++ cs').length < f := by simp at hf ⊢; omega
    have hstop : Heads (fun c => (isSpace c || (tabs && isTab c)) = false) (com ++ cs') := by
      rcases h4 with ⟨rfl, c, r, rfl, c1, c2, c3⟩ | ⟨⟨c, r, rfl, rfl⟩, _⟩
      · exact ⟨c, r, rfl, gapStop.mpr ⟨c1, c2⟩⟩
      · exact ⟨_, _, rfl, gapStop.mpr ⟨by omega, by omega⟩⟩
    have hcom : ∃ m2, Yields (skipComment f) (m1.steps ws.length) (com ++ cs') () m2 cs' := by
      rcases h4 with ⟨rfl, c, r, rfl, c1, c2, c3⟩ | ⟨hc1, hc2, hc3⟩
      · exact ⟨_, (y_skipComment hl').mpr (.inr ⟨⟨c, r, rfl, c3⟩, rfl, rfl⟩)⟩
      · exact ⟨_, (y_skipComment hl').mpr (.inl ⟨com, rfl, hc1, hc2, hc3, rfl⟩)⟩
    obtain ⟨m2, hcom⟩ := hcom
    refine ⟨m2, ?_⟩
    unfold marginOf
    simp only [y_bind, y_cache1]
    exact ⟨(), _, _, hb, (), _, _, ⟨rfl, rfl⟩, (), _, _, (y_skipWhile hl).mpr ⟨ws, rfl, fun x hx => gapChar.mpr (h3 x hx), hstop, rfl⟩, hcom⟩

theorem Spec.Margin.length {tabs : Bool} {col : Nat} (h : Margin tabs col cs cs') : cs'.length ≤ cs.length := by
  cases h; simp; omega

theorem filler_sound {flow allowed b : Bool} {f n : Nat} (hf : cs.length < f) (h : Yields (scanToNext flow f n allowed) m cs b m' cs') : Filler flow allowed m.column cs b cs' := by
  induction n generalizing m cs allowed with
  | zero => cases h
  | succ n ih =>
    rw [scanToNext_margin] at h
    obtain ⟨m1, cs1, h1, c, r, rfl, ⟨hb, b1, m2, cs2, hb1, h0, _, h⟩ | ⟨hb, rfl, rfl, rfl⟩⟩ := h
    · have k1 := margin_sound hf h1
      have l1 := k1.length
      have l2 := hb1.length
      have := ih (by omega) h
      rw [h0] at this
      exact .next k1 hb1 this
    · exact .last (margin_sound hf h1) ⟨c, r, rfl, hb⟩

theorem filler_complete {flow allowed b : Bool} {col f n : Nat} (h : Filler flow allowed col cs b cs') (hm : m.column = col) (hf : cs.length < f) (hn : cs.length < n) :
    ∃ m', Yields (scanToNext flow f n allowed) m cs b m' cs' := by
  induction h generalizing m n with
  | last h1 h2 =>
    obtain ⟨n, rfl⟩ : ∃ k, n = k + 1 := ⟨n - 1, by omega⟩
    subst hm
    obtain ⟨m1, k1⟩ := margin_complete hf h1
    obtain ⟨c, r, rfl, hc⟩ := h2
    exact ⟨m1, scanToNext_margin.mpr ⟨m1, _, k1, c, r, rfl, .inr ⟨hc, rfl, rfl, rfl⟩⟩⟩
  | next h1 h2 _ ih =>
    obtain ⟨n, rfl⟩ : ∃ k, n = k + 1 := ⟨n - 1, by omega⟩
    subst hm
    obtain ⟨m1, k1⟩ := margin_complete hf h1
    have l1 := h1.length
    have l2 := h2.length
    obtain ⟨m', h⟩ := ih (m := m1.newline _) (n := n) rfl (by omega) (by omega)
    obtain ⟨c, r, e, hc⟩ := h2.head
    exact ⟨m', scanToNext_margin.mpr ⟨m1, _, k1, c, r, e, .inl ⟨hc, _, _, _, h2, rfl, rfl, h⟩⟩⟩

theorem scanToNext_iff {flow allowed b : Bool} {f : Nat} (hf : cs.length < f) :
    (∃ m', Yields (scanToNext flow f f allowed) m cs b m' cs') ↔ Filler flow allowed m.column cs b cs' :=
  ⟨fun ⟨_, h⟩ => filler_sound hf h, fun h => filler_complete h rfl hf hf⟩

end LibYaml
