import Verif.Proofs.Suite
import Verif.Proofs.Reread

/-! Events of the parser in the notation of the test suite, and the bounds of the buffers. -/

namespace LibYaml

open Spec

/-- A scalar has a definite style. -/
def Styled : EvData → Prop
  | .scalar _ _ _ _ _ s => s ≠ .any
  | _ => True

theorem absent_styled : Styled absent := nofun

theorem gram_styled {v : Variant} {tags : List TagDir} {nt : Nt} {w : List TokData} {e : List EvData} (h : Gram v tags nt w e)
    (hw : ∀ d ∈ w, GoodTok d) : ∀ x ∈ e, Styled x := by
  induction h with
  | «alias» a =>
    intro x hx
    rw [List.mem_singleton.mp hx]
    trivial
  | @scalar b i p a t x style hp =>
    intro y hy
    rw [List.mem_singleton.mp hy]
    exact (hw (.scalar x style) (by simp)).2.1
  | empty hp =>
    intro y hy
    rw [List.mem_singleton.mp hy]
    exact nofun
  | flowSequence hp _ ih | blockSequence hp _ ih =>
    intro y hy
    simp only [List.cons_append, List.mem_cons, List.mem_append, List.not_mem_nil, or_false] at hy
    rcases hy with rfl | hy | rfl
    · trivial
    · exact ih (fun d hd => hw d (by simp [hd])) y hy
    · trivial
  | flowMapping hp _ ih | blockMapping hp _ ih =>
    intro y hy
    simp only [List.cons_append, List.mem_cons, List.mem_append, List.not_mem_nil, or_false] at hy
    rcases hy with rfl | hy | rfl
    · trivial
    · exact ih (fun d hd => hw d (by simp [hd])) y hy
    · trivial
  | indentless hp _ _ ih =>
    intro y hy
    simp only [List.cons_append, List.mem_cons, List.mem_append, List.not_mem_nil, or_false] at hy
    rcases hy with rfl | hy | rfl
    · trivial
    · exact ih (fun d hd => hw d (by simp [hd])) y hy
    · trivial
  | missing | noValue =>
    intro y hy
    rw [List.mem_singleton.mp hy]
    exact absent_styled
  | present _ ih | itemsOne _ ih | item _ ih | fpairsOne _ ih => exact ih hw
  | value _ ih => exact ih fun d hd => hw d (by simp [hd])
  | entriesNil | pairsNil | itemsNil | fpairsNil => exact nofun
  | entriesCons _ _ ih1 ih2 | itemsCons _ _ ih1 ih2 | fpairsCons _ _ ih1 ih2 | pair _ _ ih1 ih2 =>
    intro y hy
    rcases List.mem_append.mp hy with hy | hy
    · exact ih1 (fun d hd => hw d (by simp [hd])) y hy
    · exact ih2 (fun d hd => hw d (by simp [hd])) y hy
  | pairsCons _ _ _ ih1 ih2 ih3 =>
    intro y hy
    rcases List.mem_append.mp hy with hy | hy
    · rcases List.mem_append.mp hy with hy | hy
      · exact ih1 (fun d hd => hw d (by simp [hd])) y hy
      · exact ih2 (fun d hd => hw d (by simp [hd])) y hy
    · exact ih3 (fun d hd => hw d (by simp [hd])) y hy
  | pairsValue _ _ _ ih1 ih2 =>
    intro y hy
    simp only [List.cons_append, List.mem_cons, List.mem_append] at hy
    rcases hy with rfl | hy | hy
    · exact absent_styled
    · exact ih1 (fun d hd => hw d (by simp [hd])) y hy
    · exact ih2 (fun d hd => hw d (by simp [hd])) y hy
  | itemsEmptyKey =>
    intro y hy
    simp only [List.mem_cons, List.not_mem_nil, or_false] at hy
    rcases hy with rfl | rfl | rfl | rfl
    · trivial
    · exact absent_styled
    · exact absent_styled
    · trivial
  | itemPair _ _ ih1 ih2 =>
    intro y hy
    simp only [List.cons_append, List.mem_cons, List.mem_append, List.not_mem_nil, or_false] at hy
    rcases hy with rfl | (hy | hy) | rfl
    · trivial
    · exact ih1 (fun d hd => hw d (by simp [hd])) y hy
    · exact ih2 (fun d hd => hw d (by simp [hd])) y hy
    · trivial
  | itemPairNoKey _ _ ih =>
    intro y hy
    simp only [List.cons_append, List.mem_cons, List.mem_append, List.not_mem_nil, or_false] at hy
    rcases hy with rfl | rfl | hy | rfl
    · trivial
    · exact absent_styled
    · exact ih (fun d hd => hw d (by simp [hd])) y hy
    · trivial
  | itemPairLost _ _ _ ih =>
    intro y hy
    simp only [List.cons_append, List.mem_cons, List.mem_append, List.not_mem_nil, or_false] at hy
    rcases hy with rfl | rfl | hy | rfl
    · trivial
    · exact absent_styled
    · exact ih (fun d hd => hw d (by simp [hd])) y hy
    · trivial
  | pairKey _ ih =>
    intro y hy
    rcases List.mem_append.mp hy with hy | hy
    · exact ih hw y hy
    · rw [List.mem_singleton.mp hy]
      exact absent_styled

theorem docs_styled {v : Variant} {w : List TokData} {e : List EvData} (h : Docs v w e) (hw : ∀ d ∈ w, GoodTok d) : ∀ x ∈ e, Styled x := by
  induction h with
  | done =>
    intro x hx
    rw [List.mem_singleton.mp hx]
    trivial
  | doc k hd hg _ ih =>
    intro x hx
    simp only [List.cons_append, List.mem_cons, List.mem_append] at hx
    rcases hx with rfl | hx | rfl | hx
    · trivial
    · exact gram_styled hg (fun d h => hw d (by simp [h])) x hx
    · trivial
    · exact ih (fun d h => hw d (by simp [h])) x hx

theorem stream_styled {v : Variant} {w : List TokData} {e : List EvData} (h : Spec.Stream v w e) (hw : ∀ d ∈ w, GoodTok d) : ∀ x ∈ e, Styled x := by
  cases h with
  | explicit enc h =>
    intro x hx
    rcases List.mem_cons.mp hx with rfl | hx
    · trivial
    · exact docs_styled h (fun d h => hw d (by simp [h])) x hx
  | implicit enc k hg h =>
    intro x hx
    simp only [List.cons_append, List.mem_cons, List.mem_append] at hx
    rcases hx with rfl | rfl | hx | rfl | hx
    · trivial
    · trivial
    · exact gram_styled hg (fun d h => hw d (by simp [h])) x hx
    · trivial
    · exact docs_styled h (fun d h => hw d (by simp [h])) x hx

theorem printEvents_some {p : FlowOpt} {es : List EvData} (h : ∀ e ∈ es, Styled e) : ∃ out, printEvents p es = some out := by
  induction es with
  | nil => exact ⟨[], rfl⟩
  | cons e es ih =>
    obtain ⟨out, ho⟩ := ih fun e he => h e (by simp [he])
    have : ∃ l, printEvent p e = some l := by
      have hs := h e (by simp)
      cases e with
      | scalar a t v i j s =>
        cases s with
        | any => exact absurd rfl hs
        | _ => exact ⟨_, rfl⟩
      | _ => exact ⟨_, rfl⟩
    obtain ⟨l, hl⟩ := this
    exact ⟨l ++ 10 :: out, by unfold printEvents; rw [hl, ho]⟩

/-- A name of letters, digits, `-` and `_` is clean. -/
theorem name_clean {a : Text} (h : Name a) : CleanName a := by
  intro c hc
  have := h.2 c hc
  unfold Word at this
  refine ⟨?_, ?_, ?_, ?_, ?_, ?_⟩ <;> omega

/-- The tag of a node, where there is one, is a text without NUL, line break, space and angle brackets. -/
def CleanTags (es : List EvData) : Prop := ∀ e ∈ es, ∀ t, tagOf e = some t → CleanName t

theorem good_clean {e : EvData} (h : GoodEv e) (ht : ∀ t, tagOf e = some t → CleanName t) : CleanEvent e := by
  cases e with
  | scalar a t v i j s => exact ⟨⟨fun x hx => name_clean (h.1.1 x hx), ht⟩, fun c hc => by have := (h.2.1 c hc).1; omega⟩
  | sequenceStart a t i s => exact ⟨fun x hx => name_clean (h.1.1 x hx), ht⟩
  | mappingStart a t i s => exact ⟨fun x hx => name_clean (h.1.1 x hx), ht⟩
  | «alias» a => exact name_clean h
  | _ => trivial

/-! ### Bounds of the buffers -/

theorem unescape_safe (n : Nat) : ∀ (r acc : List UInt8), r.length ≤ n → acc.length + r.length < 1024 → unescape r acc ≠ .error .ub := by
  induction n with
  | zero =>
    intro r acc hr h
    have : r = [] := List.length_eq_zero_iff.mp (by omega)
    subst this
    rw [unescape, if_pos (by simpa using h)]; exact nofun
  | succ n ih =>
    intro r acc hr h
    cases r with
    | nil => rw [unescape, if_pos (by simpa using h)]; exact nofun
    | cons c r =>
      simp only [List.length_cons] at hr h
      by_cases hc : c = ch '\\'
      · subst hc
        cases r with
        | nil =>
          rw [show unescape [ch '\\'] acc = if ch '\\' = ch '\\' then .error .aborted else (do let acc ← putByte acc (ch '\\'); unescape [] acc) by rw [unescape],
            if_pos rfl]
          exact nofun
        | cons d r =>
          cases hd : unescapeByte d with
          | none =>
            rw [unescape, if_pos rfl, hd]
            exact nofun
          | some b =>
            simp only [List.length_cons] at hr h
            rw [unescape_pair hd (by omega)]
            exact ih _ _ (by omega) (by simp; omega)
      · rw [unescape_plain hc (by omega)]
        exact ih _ _ (by omega) (by simp; omega)

theorem length_findStyle {l : List UInt8} {s : ScalarStyle} {r : List UInt8} (h : findStyle l = some (s, r)) : r.length ≤ l.length := by
  induction l with
  | nil => cases h
  | cons c l ih =>
    rw [findStyle] at h
    split at h
    · split at h
      · cases h
        simp
        omega
      · have := ih h
        simp; omega
    · have := ih h
      simp; omega

theorem suiteAnchor_ub {s : UInt8} {l : List UInt8} : suiteAnchor s l = .error .ub ↔
    ∃ x a y, l = x ++ s :: (a ++ y) ∧ s ∉ x ∧ ch ' ' ∉ a ∧ 256 ≤ a.length := by
  by_cases hs : s ∈ l
  · obtain ⟨x, b, rfl, hx⟩ := List.eq_append_cons_of_mem hs
    unfold suiteAnchor
    rw [dropWhile_until hx]
    simp only
    have hsplit : b.takeWhile (· != ch ' ') ++ b.dropWhile (· != ch ' ') = b := List.takeWhile_append_dropWhile
    constructor
    · intro h
      split at h
      · cases h
      · exact ⟨x, b.takeWhile (· != ch ' '), b.dropWhile (· != ch ' '), by rw [hsplit], hx,
          fun hm => by have := (mem_takeWhile_both hm).1; simp at this, by omega⟩
    · rintro ⟨x', a, y, he, hx', ha, hl⟩
      have h1 := takeWhile_until (y := b) hx
      rw [he, takeWhile_until hx'] at h1
      subst h1
      have h2 : b = a ++ y := by simpa using he
      subst h2
      rw [if_neg]
      have : a.length ≤ ((a ++ y).takeWhile (· != ch ' ')).length := by
        rw [List.takeWhile_append_of_pos (fun c hc => by simp only [bne_iff_ne, ne_eq]; rintro rfl; exact ha hc)]
        simp
      omega
  · rw [suiteAnchor_none.mpr hs]
    refine iff_of_false nofun ?_
    rintro ⟨x, a, y, rfl, _⟩
    simp at hs

/-- The bytes of a tag that does not fit, or a `>` before the first `<`. -/
theorem suiteTag_ub {l : List UInt8} : suiteTag l = .error .ub ↔
    (∃ x t y, l = x ++ ch '<' :: (t ++ ch '>' :: y) ∧ ch '<' ∉ x ∧ ch '>' ∉ x ∧ ch '>' ∉ t ∧ 256 ≤ t.length) ∨
    ∃ x y, l = x ++ ch '>' :: y ∧ ch '<' ∉ x ∧ ch '<' ∈ y := by
  by_cases h1 : ch '<' ∈ l
  · by_cases h2 : ch '>' ∈ l
    · obtain ⟨x, b, rfl, hx⟩ := List.eq_append_cons_of_mem h1
      by_cases h3 : ch '>' ∈ x
      · obtain ⟨u, v, rfl, hu⟩ := List.eq_append_cons_of_mem h3
        refine iff_of_true ?_ (.inr ⟨u, v ++ ch '<' :: b, by simp, fun h => hx (by simp [h]), by simp⟩)
        unfold suiteTag
        rw [if_pos h1, if_pos h2]
        have e1 : (u ++ ch '>' :: v ++ ch '<' :: b).takeWhile (· != ch '<') = u ++ ch '>' :: v := takeWhile_until hx
        have e2 : (u ++ ch '>' :: v ++ ch '<' :: b).takeWhile (· != ch '>') = u := by
          rw [List.append_assoc, List.cons_append]; exact takeWhile_until hu
        simp only [e1, e2]
        rw [if_pos (by simp; omega)]
      · have h4 : ch '>' ∈ b := by
          rcases List.mem_append.mp h2 with h | h
          · exact absurd h h3
          · rcases List.mem_cons.mp h with h | h
            · exact absurd h (by decide)
            · exact h
        obtain ⟨t, y, rfl, ht⟩ := List.eq_append_cons_of_mem h4
        have key := suiteTag_some (y := y) hx h3 ht
        by_cases hl : t.length < 256
        · rw [key.mpr hl]
          refine iff_of_false nofun ?_
          rintro (⟨x', t', y', he, k1, k2, k3, k4⟩ | ⟨x', y', he, k1, k2⟩)
          · have e1 := takeWhile_until (y := t ++ ch '>' :: y) hx
            rw [he, takeWhile_until k1] at e1
            subst e1
            have e2 : t ++ ch '>' :: y = t' ++ ch '>' :: y' := by simpa using he
            have e3 := takeWhile_until (y := y) ht
            rw [e2, takeWhile_until k3] at e3
            subst e3
            omega
          · have e1 : (x ++ ch '<' :: (t ++ ch '>' :: y)).takeWhile (· != ch '>') = x ++ ch '<' :: t := by
              have : x ++ ch '<' :: (t ++ ch '>' :: y) = (x ++ ch '<' :: t) ++ ch '>' :: y := by simp
              rw [this]
              refine takeWhile_until fun h => ?_
              rcases List.mem_append.mp h with h | h
              · exact h3 h
              · rcases List.mem_cons.mp h with h | h
                · revert h; decide
                · exact ht h
            have h5 : ch '>' ∈ x' ∨ ch '>' ∉ x' := Decidable.em _
            rcases h5 with h5 | h5
            · obtain ⟨u, v, rfl, hu⟩ := List.eq_append_cons_of_mem h5
              rw [he, List.append_assoc, List.cons_append, takeWhile_until hu] at e1
              exact k1 (by rw [e1]; simp)
            · rw [he, takeWhile_until h5] at e1
              exact k1 (by rw [e1]; simp)
        · refine iff_of_true ?_ (.inl ⟨x, t, y, rfl, hx, h3, ht, by omega⟩)
          have hn : suiteTag (x ++ ch '<' :: (t ++ ch '>' :: y)) ≠ .ok (some t) := fun h => hl (key.mp h)
          unfold suiteTag at hn ⊢
          rw [if_pos h1, if_pos h2] at hn ⊢
          have e1 : (x ++ ch '<' :: (t ++ ch '>' :: y)).takeWhile (· != ch '<') = x := takeWhile_until hx
          have e2 : (x ++ ch '<' :: (t ++ ch '>' :: y)).takeWhile (· != ch '>') = x ++ ch '<' :: t := by
            have : x ++ ch '<' :: (t ++ ch '>' :: y) = (x ++ ch '<' :: t) ++ ch '>' :: y := by simp
            rw [this]
            refine takeWhile_until fun h => ?_
            rcases List.mem_append.mp h with h | h
            · exact h3 h
            · rcases List.mem_cons.mp h with h | h
              · revert h; decide
              · exact ht h
          simp only [e1, e2]
          have e3 : (x ++ ch '<' :: t).length - x.length - 1 = t.length := by simp
          rw [if_neg (by simp), e3, if_neg hl]
    · rw [suiteTag_none.mpr (by simp [h2])]
      refine iff_of_false nofun ?_
      rintro (⟨x, t, y, rfl, _⟩ | ⟨x, y, rfl, _⟩)
      · simp at h2
      · simp at h2
  · rw [suiteTag_none.mpr (by simp [h1])]
    refine iff_of_false nofun ?_
    rintro (⟨x, t, y, rfl, _⟩ | ⟨x, y, rfl, _, h⟩)
    · simp at h1
    · simp [h] at h1

end LibYaml
