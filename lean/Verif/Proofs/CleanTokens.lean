import Verif.Spec.ParserHeap
import Verif.Spec.EmitParse
import Verif.Proofs.Octets
import Verif.Props.Layout
import Verif.Props.Pipeline

/-!
# The tokens of the scanner are clean

Handles, anchors and aliases are ASCII; tags and prefixes have no NUL and can be stored.
-/

namespace LibYaml

open Spec

theorem word_range {c : Nat} (h : Word c) : 0 < c ∧ c < 0x80 := by
  unfold Word at h
  omega

theorem word_storable {c : Nat} (h : Word c) : Storable c := .inl (by have := word_range h; omega)

theorem uriChar_storable {full : Bool} {c : Nat} (h : UriChar full c) : Storable c := by
  rcases h with h | h | ⟨_, h⟩
  · exact word_storable h
  · left
    simp only [List.mem_cons, List.not_mem_nil, or_false] at h
    omega
  · left
    simp only [List.mem_cons, List.not_mem_nil, or_false] at h
    omega

theorem hex_lt {c d : Nat} (h : Hex c d) : d < 16 := by
  cases h <;> omega

theorem octets_lt {cs os : List Nat} (h : Octets cs os) : ∀ b ∈ os, b < 256 := by
  induction h with
  | nil => simp
  | @cons a b x y cs os hx hy _ ih =>
    intro c hc
    rcases List.mem_cons.mp hc with rfl | hc
    · have := hex_lt hx
      have := hex_lt hy
      omega
    · exact ih c hc

/-- Octets that have the form of an encoded character, but are none, are overlong. -/
theorem raw_overlong {os : List Nat} (h1 : Octet1 os) (hlt : ∀ b ∈ os, b < 256) (hne : ∀ c, c < 0x200000 → (utf8 c).map UInt8.toNat ≠ os) :
    bigEndian os < 0x100000000 ∧ Overlong (rawOctets (bigEndian os)) := by
  have tn : ∀ n, n < 256 → (UInt8.ofNat n).toNat = n := fun n hn => by simp [Nat.mod_eq_of_lt hn]
  have eq : ∀ n (b : UInt8), n = b.toNat → UInt8.ofNat n = b := fun n b hn => by rw [hn, UInt8.ofNat_toNat]
  cases h1 with
  | one a ha =>
    exfalso
    refine hne a (by omega) ?_
    unfold utf8
    rw [if_pos ha]
    simp only [List.map_cons, List.map_nil, tn a (by omega)]
  | more a n os hn hl hb =>
    rcases hn with ⟨rfl, h2, h3⟩ | ⟨rfl, h2, h3⟩ | ⟨rfl, h2, h3⟩
    · obtain ⟨b, rfl⟩ : ∃ b, os = [b] := by
        match os, hl with
        | [b], _ => exact ⟨b, rfl⟩
      have hb1 := hb b (by simp)
      have e : bigEndian [a, b] = a * 0x100 + b := by simp [bigEndian]
      have ha : a < 0xC2 := by
        refine Nat.lt_of_not_le fun ha => hne ((a - 0xC0) * 0x40 + (b - 0x80)) (by omega) ?_
        unfold utf8
        rw [if_neg (by omega), if_pos (by omega)]
        simp only [List.map_cons, List.map_nil]
        rw [tn _ (by omega), tn _ (by omega), show 0xC0 + ((a - 0xC0) * 0x40 + (b - 0x80)) / 0x40 = a by omega,
          show 0x80 + ((a - 0xC0) * 0x40 + (b - 0x80)) % 0x40 = b by omega]
      rw [e]
      refine ⟨by omega, ?_⟩
      unfold rawOctets
      rw [if_neg (by omega), if_neg (by omega)]
      simp only [List.nil_append, Overlong, Trails]
      rw [tn _ (by omega)]
      refine ⟨?_, by omega, by omega⟩
      rcases (by omega : a = 0xC0 ∨ a = 0xC1) with rfl | rfl
      · exact .inl (eq _ _ (by simp; omega))
      · exact .inr (eq _ _ (by simp; omega))
    · obtain ⟨b, c, rfl⟩ : ∃ b c, os = [b, c] := by
        match os, hl with
        | [b, c], _ => exact ⟨b, c, rfl⟩
      have hb1 := hb b (by simp)
      have hb2 := hb c (by simp)
      have e : bigEndian [a, b, c] = (a * 0x100 + b) * 0x100 + c := by simp [bigEndian]
      have ha : a = 0xE0 ∧ b < 0xA0 := by
        refine Classical.byContradiction fun ha => hne (((a - 0xE0) * 0x40 + (b - 0x80)) * 0x40 + (c - 0x80)) (by omega) ?_
        unfold utf8
        rw [if_neg (by omega), if_neg (by omega), if_pos (by omega)]
        simp only [List.map_cons, List.map_nil]
        rw [tn _ (by omega), tn _ (by omega), tn _ (by omega), show 0xE0 + (((a - 0xE0) * 0x40 + (b - 0x80)) * 0x40 + (c - 0x80)) / 0x1000 = a by omega,
          show 0x80 + (((a - 0xE0) * 0x40 + (b - 0x80)) * 0x40 + (c - 0x80)) / 0x40 % 0x40 = b by omega,
          show 0x80 + (((a - 0xE0) * 0x40 + (b - 0x80)) * 0x40 + (c - 0x80)) % 0x40 = c by omega]
      obtain ⟨rfl, ha⟩ := ha
      rw [e]
      refine ⟨by omega, ?_⟩
      unfold rawOctets
      rw [if_neg (by omega), if_pos (by omega)]
      simp only [List.nil_append, List.cons_append, Overlong, Trails]
      rw [tn _ (by omega), tn _ (by omega)]
      exact ⟨eq _ _ (by simp; omega), by omega, by omega, by omega⟩
    · obtain ⟨b, c, d, rfl⟩ : ∃ b c d, os = [b, c, d] := by
        match os, hl with
        | [b, c, d], _ => exact ⟨b, c, d, rfl⟩
      have hb1 := hb b (by simp)
      have hb2 := hb c (by simp)
      have hb3 := hb d (by simp)
      have e : bigEndian [a, b, c, d] = ((a * 0x100 + b) * 0x100 + c) * 0x100 + d := by simp [bigEndian]
      have ha : a = 0xF0 ∧ b < 0x90 := by
        refine Classical.byContradiction fun ha => hne ((((a - 0xF0) * 0x40 + (b - 0x80)) * 0x40 + (c - 0x80)) * 0x40 + (d - 0x80)) (by omega) ?_
        unfold utf8
        rw [if_neg (by omega), if_neg (by omega), if_neg (by omega)]
        simp only [List.map_cons, List.map_nil]
        rw [tn _ (by omega), tn _ (by omega), tn _ (by omega), tn _ (by omega),
          show 0xF0 + ((((a - 0xF0) * 0x40 + (b - 0x80)) * 0x40 + (c - 0x80)) * 0x40 + (d - 0x80)) / 0x40000 = a by omega,
          show 0x80 + ((((a - 0xF0) * 0x40 + (b - 0x80)) * 0x40 + (c - 0x80)) * 0x40 + (d - 0x80)) / 0x1000 % 0x40 = b by omega,
          show 0x80 + ((((a - 0xF0) * 0x40 + (b - 0x80)) * 0x40 + (c - 0x80)) * 0x40 + (d - 0x80)) / 0x40 % 0x40 = c by omega,
          show 0x80 + ((((a - 0xF0) * 0x40 + (b - 0x80)) * 0x40 + (c - 0x80)) * 0x40 + (d - 0x80)) % 0x40 = d by omega]
      obtain ⟨rfl, ha⟩ := ha
      rw [e]
      refine ⟨by omega, ?_⟩
      unfold rawOctets
      rw [if_pos (by omega), if_pos (by omega)]
      simp only [List.nil_append, List.cons_append, Overlong, Trails]
      rw [tn _ (by omega), tn _ (by omega), tn _ (by omega)]
      exact ⟨eq _ _ (by simp; omega), by omega, by omega, by omega, by omega⟩

theorem octetValue_storable {os : List Nat} {u : Nat} (h1 : Octet1 os) (hlt : ∀ b ∈ os, b < 256) (h : OctetValue os u) : Storable u := by
  cases h with
  | char c hc _ => exact .inl hc
  | raw hne =>
    right
    obtain ⟨g1, g2⟩ := raw_overlong h1 hlt hne
    refine ⟨by omega, ?_⟩
    unfold octets
    rw [if_neg (by omega), Nat.add_sub_cancel_left]
    exact g2

theorem uri_storable {full : Bool} {cs v rest : List Nat} (h : Uri full cs v rest) : ∀ c ∈ v, Storable c := by
  induction h with
  | done => simp
  | char hc _ ih =>
    intro x hx
    rcases List.mem_cons.mp hx with rfl | hx
    · exact uriChar_storable hc
    · exact ih x hx
  | escape ho h1 hv _ ih =>
    intro x hx
    rcases List.mem_cons.mp hx with rfl | hx
    · exact octetValue_storable h1 (octets_lt ho) hv
    · exact ih x hx

theorem upToNul_clean {v : List Nat} (h : ∀ c ∈ v, Storable c) : CText (upToNul v) := by
  intro c hc
  unfold upToNul at hc
  exact ⟨by simpa using List.all_eq_true.mp (List.all_takeWhile (l := v) (p := fun c => decide (c ≠ 0))) c hc, h c ((List.takeWhile_sublist _).subset hc)⟩

theorem words_anchor {w : List Nat} (h : ∀ c ∈ w, Word c) : AnchorText w := fun c hc => word_range (h c hc)

theorem handle_anchor {h : Text} (hh : Handle h) : AnchorText h := by
  rcases hh with rfl | ⟨w, rfl, hw⟩
  · intro c hc
    simp only [List.mem_cons, List.not_mem_nil, or_false] at hc
    omega
  · intro c hc
    simp only [List.mem_cons, List.mem_append, List.not_mem_nil, or_false] at hc
    rcases hc with rfl | hc | rfl
    · omega
    · exact word_range (hw c hc)
    · omega

theorem tagText_clean {cs h s rest : List Nat} (ht : TagText cs h s rest) : AnchorText h ∧ CText s := by
  have app : ∀ {w v : List Nat}, (∀ c ∈ w, Word c) → (∀ c ∈ v, Storable c) → ∀ c ∈ w ++ v, Storable c := by
    intro w v hw hv c hc
    rcases List.mem_append.mp hc with hc | hc
    · exact word_storable (hw c hc)
    · exact hv c hc
  have nil : AnchorText [] := fun c hc => by cases hc
  have mark : AnchorText [0x21] := handle_anchor (.inl rfl)
  cases ht with
  | verbatim _ hu => exact ⟨nil, upToNul_clean (uri_storable hu)⟩
  | named w hw _ hu => exact ⟨handle_anchor (.inr ⟨w, rfl, hw⟩), upToNul_clean (uri_storable hu)⟩
  | primary w hw _ _ hu _ => exact ⟨mark, upToNul_clean (app hw (uri_storable hu))⟩
  | bare w hw _ _ hu _ =>
    exact ⟨nil, fun c hc => by
      simp only [List.mem_cons, List.not_mem_nil, or_false] at hc
      subst hc
      exact ⟨by omega, .inl (by omega)⟩⟩

/-! ### Scalars -/

/-- The text has Unicode characters only. -/
def Chars (t : List Nat) : Prop := ∀ c ∈ t, UChar c

theorem uchar_small {c : Nat} (h : c < 0xD800) : UChar c := ⟨by omega, by omega⟩

theorem Chars.append {a b : List Nat} (ha : Chars a) (hb : Chars b) : Chars (a ++ b) := by
  intro c hc
  rcases List.mem_append.mp hc with hc | hc
  · exact ha c hc
  · exact hb c hc

theorem Chars.left {a b : List Nat} (h : Chars (a ++ b)) : Chars a := fun c hc => h c (List.mem_append_left _ hc)

theorem Chars.right {a b : List Nat} (h : Chars (a ++ b)) : Chars b := fun c hc => h c (List.mem_append_right _ hc)

theorem Chars.nil : Chars [] := fun c hc => by cases hc

theorem Chars.tail {a : Nat} {b : List Nat} (h : Chars (a :: b)) : Chars b := fun c hc => h c (List.mem_cons_of_mem _ hc)

theorem Chars.head {a : Nat} {b : List Nat} (h : Chars (a :: b)) : UChar a := h a List.mem_cons_self

theorem Chars.cons {a : Nat} {b : List Nat} (ha : UChar a) (hb : Chars b) : Chars (a :: b) := by
  intro c hc
  rcases List.mem_cons.mp hc with rfl | hc
  · exact ha
  · exact hb c hc

theorem chars_break {cs : List Nat} {b : Nat} {r : List Nat} (h : BreakAt cs b r) (hc : Chars cs) : UChar b ∧ Chars r := by
  cases h with
  | crlf => exact ⟨uchar_small (by omega), hc.tail.tail⟩
  | cr => exact ⟨uchar_small (by omega), hc.tail⟩
  | lf => exact ⟨uchar_small (by omega), hc.tail⟩
  | nel => exact ⟨uchar_small (by omega), hc.tail⟩
  | ls => exact ⟨uchar_small (by omega), hc.tail⟩
  | ps => exact ⟨uchar_small (by omega), hc.tail⟩

theorem chars_lines {ok : Nat → Nat → Prop} {col : Nat} {cs bs rest : List Nat} {col' : Nat} (h : Lines ok col cs bs rest col') (hc : Chars cs) :
    Chars bs ∧ Chars rest := by
  induction h with
  | done => exact ⟨.nil, hc⟩
  | blank _ _ _ ih => exact ih hc.tail
  | «break» hb _ ih =>
    obtain ⟨h1, h2⟩ := chars_break hb hc
    exact ⟨.cons h1 (ih h2).1, (ih h2).2⟩

theorem chars_fold {bs : List Nat} (h : Chars bs) : Chars (fold bs) := by
  cases bs with
  | nil => exact h
  | cons b bs =>
    show Chars (if b = 0xA then (if bs = [] then [0x20] else bs) else b :: bs)
    split
    · split
      · exact .cons (uchar_small (by omega)) .nil
      · exact h.tail
    · exact h

theorem chars_space {ok : Nat → Nat → Prop} {col : Nat} {cs w rest : List Nat} {col' : Nat} {line : Bool} (h : Space ok col cs w rest col' line) (hc : Chars cs) :
    Chars w ∧ Chars rest := by
  cases h with
  | inline => exact ⟨hc.left, hc.right⟩
  | lines _ _ hb hl =>
    obtain ⟨h1, h2⟩ := chars_break hb hc.right
    obtain ⟨h3, h4⟩ := chars_lines hl h2
    exact ⟨chars_fold (.cons h1 h3), h4⟩

theorem chars_qchar {single : Bool} {src : List Nat} {v : Nat} (h : QChar single src v) (hc : Chars src) : UChar v := by
  cases h with
  | self => exact hc.head
  | quote => exact uchar_small (by omega)
  | escape c v h =>
    have : ∀ x ∈ escapes, x.2 < 0xD800 := by decide
    exact uchar_small (this _ h)
  | code _ _ _ _ _ _ _ h1 h2 => exact ⟨h1, h2⟩

theorem chars_quoted {single : Bool} {col : Nat} {cs v rest : List Nat} (h : Quoted single col cs v rest) (hc : Chars cs) : Chars v := by
  induction h with
  | close => exact .nil
  | char hq _ _ ih => exact .cons (chars_qchar hq hc.left) (ih hc.right)
  | white hs _ ih =>
    obtain ⟨h1, h2⟩ := chars_space hs hc
    exact h1.append (ih h2)
  | joined _ hb hl _ ih =>
    obtain ⟨h1, h2⟩ := chars_break hb hc.tail
    obtain ⟨h3, h4⟩ := chars_lines hl h2
    exact h3.append (ih h4)

theorem chars_plain {flow : Bool} {indent : Int} {col : Nat} {cs v rest : List Nat} {line : Bool} (h : Plain flow indent col cs v rest line) (hc : Chars cs) :
    Chars v := by
  induction h with
  | stop => exact .nil
  | char _ _ ih => exact .cons hc.head (ih hc.tail)
  | over => exact .nil
  | white hs _ _ ih =>
    obtain ⟨h1, h2⟩ := chars_space hs hc
    exact h1.append (ih h2)

theorem chars_header {cs : List Nat} {x : Chomping} {n : Nat} {rest : List Nat} (h : Header cs x n rest) (hc : Chars cs) : Chars rest := by
  cases h with
  | none => exact hc
  | chomp => exact hc.tail
  | indent => exact hc.tail
  | both => exact hc.tail.tail
  | both' => exact hc.tail.tail

theorem chars_lineEnd {cs rest : List Nat} {eof : Bool} (h : LineEnd cs rest eof) (hc : Chars cs) : Chars rest := by
  cases h with
  | «break» _ _ _ _ _ hb => exact (chars_break hb hc.right.right).2
  | eof => exact hc.right.right

theorem chars_empties {n : Nat} {cs bs : List Nat} {mx : Nat} {rest : List Nat} {col : Nat} (h : Empties n cs bs mx rest col) (hc : Chars cs) :
    Chars bs ∧ Chars rest := by
  induction h with
  | last => exact ⟨.nil, hc.right⟩
  | line _ hb _ _ ih =>
    obtain ⟨h1, h2⟩ := chars_break hb hc.right
    exact ⟨.cons h1 (ih h2).1, (ih h2).2⟩

theorem chars_blockText {n col : Nat} {cs : List Nat} {ls : List BlockLine} {mid rest : List Nat} (h : BlockText n col cs ls mid rest) (hc : Chars cs) :
    ∀ l ∈ ls, Chars l.text ∧ Chars l.breaks := by
  induction h with
  | over => exact fun l hl => by cases hl
  | last => exact fun l hl => by rw [List.mem_singleton.mp hl]; exact ⟨hc.left, .nil⟩
  | line _ _ _ hb he _ ih =>
    obtain ⟨h1, h2⟩ := chars_break hb hc.right
    obtain ⟨h3, h4⟩ := chars_empties he h2
    intro l hl
    rcases List.mem_cons.mp hl with rfl | hl
    · exact ⟨hc.left, .cons h1 h3⟩
    · exact ih h4 l hl

theorem chars_joined {literal : Bool} {ls : List BlockLine} {v t : List Nat} (h : Joined literal ls v t) (hl : ∀ l ∈ ls, Chars l.text ∧ Chars l.breaks) :
    Chars v ∧ Chars t := by
  induction h with
  | nil => exact ⟨.nil, .nil⟩
  | one l => exact hl l List.mem_cons_self
  | cons hb _ ih =>
    obtain ⟨h1, h2⟩ := ih fun l h => hl l (List.mem_cons_of_mem _ h)
    obtain ⟨h3, h4⟩ := hl _ List.mem_cons_self
    refine ⟨h3.append (.append ?_ h1), h2⟩
    cases hb with
    | kept => exact h4
    | folded => exact chars_fold h4

theorem chars_blockScalar {literal : Bool} {parent : Int} {cs v mid rest : List Nat} (h : BlockScalar literal parent cs v mid rest) (hc : Chars cs) : Chars v := by
  cases h with
  | eof => exact .nil
  | @lines x _ _ _ _ _ _ _ _ _ _ _ t _ hh hl he _ hb hj =>
    obtain ⟨h1, h2⟩ := chars_empties he (chars_lineEnd hl (chars_header hh hc))
    obtain ⟨h3, h4⟩ := chars_joined hj (chars_blockText hb h2)
    have h5 : Chars (chomped x t) := by
      unfold chomped
      split
      · exact .nil
      · exact fun c hc => h4 c (List.mem_of_mem_take hc)
      · exact h4
    split
    · split
      · exact h1
      · exact .nil
    · exact h1.append (h3.append h5)

/-- A plain scalar is not empty. -/
theorem plain_ne {flow : Bool} {indent : Int} {col : Nat} {cs v rest mid : List Nat} {line : Bool} (hf : PlainFirst flow cs)
    (h : Plain flow indent col cs v rest line) (ht : Trimmed cs mid rest) : v ≠ [] := by
  rintro rfl
  obtain ⟨c, r, rfl, hc⟩ := hf
  have hw : ¬ White c := by
    rcases hc with ⟨hc, _⟩ | ⟨hc, _⟩
    · exact hc
    · have : c = 0x2D ∨ c = 0x3F ∨ c = 0x3A := by
        rcases hc with h | ⟨_, h | h⟩ <;> simp [h]
      rcases this with rfl | rfl | rfl <;> simp [White, Blank, Brk]
  have space : ∀ {ok : Nat → Nat → Prop} {w : List Nat} {col' : Nat} {line' : Bool} {r' : List Nat}, ¬ Space ok col (c :: r) w r' col' line' := by
    intro ok w col' line' r' hs
    generalize hx : c :: r = x at hs
    cases hs with
    | inline _ d r hne hb =>
      cases w with
      | nil => exact hne rfl
      | cons y ws =>
        rw [List.cons_append, List.cons.injEq] at hx
        rw [hx.1] at hw
        exact hw (.inl (hb y (.head _)))
    | lines ws hb hk =>
      cases ws with
      | nil =>
        rw [List.nil_append] at hx
        subst hx
        cases hk <;> exact hw (.inr (.inl (by simp [Brk])))
      | cons y ws =>
        rw [List.cons_append, List.cons.injEq] at hx
        rw [hx.1] at hw
        exact hw (.inl (hb y (.head _)))
  generalize hx : c :: r = x at h
  generalize hv : ([] : List Nat) = v at h
  cases h with
  | stop =>
    subst hx
    obtain ⟨a, b, h1, h2, _, a', d, h3, _⟩ := ht
    have := congrArg List.length h1
    have := congrArg List.length h2
    have := congrArg List.length h3
    simp only [List.length_append, List.length_cons, List.length_nil] at *
    omega
  | char => cases hv
  | over hs =>
    subst hx
    exact space hs
  | white hs =>
    subst hx
    exact space hs

theorem chars_small {t : List Nat} (h : Chars t) : ∀ c ∈ t, c < 0x110000 := fun c hc => Nat.lt_succ_of_le (h c hc).1

theorem lexeme_clean {flow : Bool} {indent : Int} {col : Nat} {cs : List Nat} {d : TokData} {mid rest : List Nat} {line : Bool}
    (h : Lexeme flow indent col cs d mid rest line) (hc : Chars cs) : CleanTok d := by
  cases h <;> try trivial
  case tagDirective _ h =>
    cases h with
    | mk _ _ _ _ _ hh _ _ _ _ hu _ _ => exact ⟨handle_anchor hh, upToNul_clean (uri_storable hu)⟩
  case anchor h => exact words_anchor h.2.2.1
  case «alias» h => exact words_anchor h.2.2.1
  case tag h => exact tagText_clean h.1
  case literal _ h => exact chars_small (chars_blockScalar h hc.tail)
  case folded _ h => exact chars_small (chars_blockScalar h hc.tail)
  case single h => exact chars_small (chars_quoted h hc.tail)
  case double h => exact chars_small (chars_quoted h hc.tail)
  case plain => exact chars_small (chars_plain (by assumption) hc)

theorem lexed_clean {T : List Nat} {ls : List Lx} {u : List Nat} {lv : Nat} {key : Bool} (h : Lexed T ls u lv key) (hT : Chars T) : ∀ x ∈ ls, CleanTok x.token.data := by
  induction h with
  | start => simp
  | @next ls u lv key w v x mid rest key' kd line ls' d _ _ he _ hx _ hm _ _ ih =>
    intro x hmem
    rcases List.mem_append.mp hmem with hmem | hmem
    · obtain ⟨y, hy, he⟩ := marked_mem hm hmem
      rw [← he]
      exact ih y hy
    · simp only [List.mem_singleton] at hmem
      subst hmem
      rw [he] at hT
      exact lexeme_clean hx hT.right.right

theorem layout_clean {T : List Nat} {ls : List Lx} {u : List Nat} {lv : Nat} {key : Bool} (h : Lexed T ls u lv key) (hT : Chars T) {cols : List Nat} :
    ∀ t ∈ layout cols ls, CleanTok t.data := by
  intro t ht
  by_cases ho : ofText t = true
  · have : t ∈ (layout cols ls).filter ofText := List.mem_filter.mpr ⟨ht, ho⟩
    rw [layout_ofText h.ofText] at this
    obtain ⟨x, hx, rfl⟩ := List.mem_map.mp this
    exact lexed_clean h hT x hx
  · unfold ofText at ho
    split at ho
    · rename_i hd; rw [hd]; trivial
    · rename_i hd; rw [hd]; trivial
    · rename_i hd; rw [hd]; trivial
    · rename_i hd; rw [hd]; trivial
    · exact absurd rfl ho

theorem permitted_char {c : Nat} (h : Permitted c) : UChar c := by
  unfold Permitted at h
  unfold UChar
  omega

theorem reach_feeds {σ : Type} {S : TokSrc σ} {x y : σ} (h : SrcReach S x y) : ∃ ts, Feeds S x ts y := by
  induction h with
  | refl => exact ⟨[], .nil _⟩
  | step _ hn ih =>
    obtain ⟨ts, ih⟩ := ih
    exact ⟨_, .snoc ih hn⟩

/-- Every token that the scanner delivers to the parser is clean. -/
theorem scanner_clean (o : Oracle) (enc : Option Enc) (bytes : List UInt8) (hsize : bytes.length < maxFileSize) {f : Nat} (hf : bytes.length + 3 < f) :
    CleanSrc (scannerSrc o f) ((scanStart enc bytes).scanner, (scanStart enc bytes).input) := by
  intro y t z hy hn
  obtain ⟨ts, hts⟩ := reach_feeds hy
  obtain ⟨D, E, h1, h2, h3, _⟩ := C56_tokens_are_those_of_the_scanner o enc bytes hsize hf (hts.snoc hn)
  have hmem : t ∈ D ++ E := by rw [← h1]; simp
  rcases List.mem_append.mp hmem with hD | hE
  · obtain ⟨good, tail, hs⟩ := exists_split (chosen enc bytes).1 (chosen enc bytes).2
    obtain ⟨en, ls, u, lv, key, hl, hp, _⟩ := C58_tokens_of_the_layout o enc bytes hsize f hf D.length good tail hs D [] (by rw [h2]; simp) (by simp)
    rcases List.mem_cons.mp (hp.subset hD) with rfl | ht
    · trivial
    · refine layout_clean hl (Chars.append (fun c hc => ?_) ?_) t ht
      · have := hs.perm c hc
        exact permitted_char this
      · split
        · exact .cons (uchar_small (by omega)) .nil
        · exact .nil
  · rw [h3 t hE]
    trivial

end LibYaml
