import Verif.Proofs.LeafWrite
import Verif.Spec.TokenGrammar

/-!
# Properties of nodes

What the analysis of an event notes about its anchor and its tag, the text that is written for them, and the tokens the scanner makes of it.
-/

namespace LibYaml

open Spec

/-! ### The tag `!` -/

theorem lw_scanTag_bang {f : Nat} {flow : Bool} {m : Mark} {r : Text} (hr : TagEnd flow r) (hn : 1 ≤ f) {Q : Token → Mark → Text → Prop}
    (hQ : Q { data := .tag [] [33], start := m, stop := m.adv 1 } (m.adv 1) r) : lw (scanTag f flow) Q m (33 :: r) := by
  obtain ⟨c, t, rfl, hc⟩ := hr
  obtain ⟨c', t', e, hu⟩ := TagEnd.notUri (flow := flow) (r := c :: t) ⟨c, t, rfl, hc⟩
  cases e
  have h60 : c ≠ 60 := by rintro rfl; revert hc; cases flow <;> decide
  have h33 : c ≠ 33 := by rintro rfl; revert hc; cases flow <;> decide
  have ha : isAlpha c = false := by
    cases h : isAlpha c with
    | false => rfl
    | true => unfold isUri at hu; rw [h] at hu; cases hu
  unfold scanTag
  rw [lw_bind, lw_get, lw_bind]
  unfold scanTagBody
  rw [lw_bind, lw_cache2, lw_bind, lw_peek1 (by decide), lw_ite, if_neg (by simpa using h60), lw_bind]
  refine lw_scanTagHandle_short (a := []) (by simp) (by simp only [List.length_nil]; omega) ⟨c, t, rfl, ha, h33⟩ (fun _ => rfl) ?_
  rw [lw_ite, if_neg (by decide), lw_bind]
  refine lw_scanTagUri (head := [33]) (v := []) (by simp) (by simp) (.inr (by simp)) ⟨c, t, rfl, hu⟩ (by simp [tagText]; omega) (fun h => by cases h) ?_
  show lw (if ([] : Text).isEmpty = true then pure ([], [33]) else pure ([33], [])) _ _ _
  rw [lw_ite, if_pos (by rfl), lw_pure, lw_bind, lw_cache1, lw_bind, lw_peek0, lw_ite, if_pos hc, lw_bind, lw_get, lw_pure]
  exact hQ

/-! ### What is noted -/

/-- The fields about the tag say that the tag is `t` in a document with the directives `T`. -/
inductive TagNote (T : List TagDir) (h x : Option Text) : Option Text → Prop
  | none : h = none → x = none → TagNote T h x none
  | bang : h = some [33] → x = none → TagNote T h x (some [33])
  | tag {t y : Text} : x = some y → y ≠ [] → (∀ c ∈ y, Storable c ∧ c ≠ 0) → (∀ z, h = some z → HandleOk z ∧ ∀ c ∈ y, ¬ flowInd c) →
      expand T (formHandle h) y = some t → TagNote T h x (some t)

/-- The fields about the properties of a node. -/
structure PropNote (T : List TagDir) (s : Emitter) (a t : Option Text) : Prop where
  anchor : s.anchor = a
  name : ∀ x, a = some x → x ≠ [] ∧ ∀ c ∈ x, isAlpha c = true
  real : ∀ x, a = some x → s.anchorIsAlias = false
  tag : TagNote T s.tagHandle s.tagSuffix t

/-- The text of a tag. -/
def tagWritten : Option Text → Option Text → Text
  | none, none => []
  | some h, none => h
  | h, some x => tagForm h x

/-- The length of the properties in bytes. -/
def Emitter.propLen (s : Emitter) : Nat := optLen s.anchor + optLen s.tagHandle + optLen s.tagSuffix

/-- A text of properties. -/
structure PropText (T : List TagDir) (lb : Break) (a t : Option Text) (b : Text) (tk : List TokData) : Prop where
  scan : ∀ flow ind, LeafScan flow ind lb 0 (fun br => br && !flow) PropFol b tk
  line : NoBreaks b
  props : Properties T tk a t
  ne : tk ≠ []

/-- What the properties leave behind. -/
def PropOut (T : List TagDir) (lb : Break) (a t : Option Text) (s : Emitter) (x : Text) (s' : Emitter) : Prop :=
  (x = [] ∧ a = none ∧ t = none ∧ s' = s) ∨
  ∃ b tk, x = lead s ++ b ∧ PropText T lb a t b tk ∧ b.length ≤ 5 + 3 * s.propLen ∧ Kin s s' ∧ s'.whitespace = false ∧ s'.indention = false

theorem tagNote_scan {T : List TagDir} {h x : Option Text} {t : Text} (lb : Break) (hn : TagNote T h x (some t)) :
    (∃ hd y, (∀ flow ind, LeafScan flow ind lb 0 (fun br => br && !flow) PropFol (tagWritten h x) [.tag hd y]) ∧ expand T hd y = some t) ∧
      NoBreaks (tagWritten h x) ∧ (tagWritten h x).length ≤ 3 + 3 * (optLen h + optLen x) := by
  cases hn with
  | bang h1 h2 =>
    subst h1 h2
    refine ⟨⟨[], [33], fun flow ind => leaf_tag (w := []) (by simp) fun f m r hr hf => ?_, by unfold expand; rfl⟩, ?_, ?_⟩
    · exact lw_scanTag_bang hr (by simpa using hf) ⟨rfl, rfl⟩
    · intro c hc
      rw [List.mem_singleton.mp hc]; decide
    · unfold tagWritten; simp only [List.length_cons, List.length_nil]; omega
  | tag h1 h2 h3 h4 h5 =>
    rename_i y
    subst h1
    have e : ∃ w, tagWritten h (some y) = 33 :: w ∧ tagForm h y = 33 :: w := by
      cases h with
      | none => exact ⟨_, rfl, rfl⟩
      | some z =>
        rcases (h4 z rfl).1 with rfl | ⟨mid, _, rfl⟩
        · exact ⟨_, rfl, rfl⟩
        · exact ⟨_, rfl, rfl⟩
    have e2 : tagWritten h (some y) = tagForm h y := by obtain ⟨w, e1, e2⟩ := e; rw [e1, e2]
    have hlen := length_tagText y
    refine ⟨⟨formHandle h, y, fun flow ind => ?_, h5⟩, ?_, ?_⟩
    · obtain ⟨w, e1, e3⟩ := e
      rw [e1]
      refine leaf_tag (by simp) fun f m r hr hf => ?_
      have := lw_scanTag (m := m) (r := r) (f := f) (flow := flow) (Q := fun tok _ cs => tok.data = .tag (formHandle h) y ∧ cs = r) h4 h3 h2 hr
        (by rw [e3]; simpa using hf) ⟨rfl, rfl⟩
      rw [e3] at this
      exact this
    · rw [e2]
      cases h with
      | none =>
        intro c hc
        unfold tagForm at hc
        simp only [List.mem_cons, List.mem_append, List.not_mem_nil, or_false] at hc
        rcases hc with rfl | rfl | hc | rfl
        · decide
        · decide
        · exact noBreaks_tagText y c hc
        · decide
      | some z =>
        refine noBreaks_append ?_ (noBreaks_tagText y)
        rcases (h4 z rfl).1 with rfl | ⟨mid, hm, rfl⟩
        · intro c hc
          rw [List.mem_singleton.mp hc]; decide
        · intro c hc
          simp only [List.mem_cons, List.mem_append, List.not_mem_nil, or_false] at hc
          rcases hc with rfl | hc | rfl
          · decide
          · exact noBreaks_alpha (hm c hc)
          · decide
    · rw [e2]
      cases h with
      | none =>
        simp only [tagForm, optLen, List.length_cons, List.length_append, List.length_nil]
        omega
      | some z =>
        have := length_le_strLen z
        simp only [tagForm, optLen, List.length_append]
        omega

theorem tw_processTag_note {T : List TagDir} {s : Emitter} {t : Text} (h : TagNote T s.tagHandle s.tagSuffix (some t)) {Q : Unit → Text → Emitter → Prop}
    (hQ : ∀ c, Q () (lead s ++ tagWritten s.tagHandle s.tagSuffix) { s with column := c, whitespace := false, indention := false }) : tw processTag Q s := by
  cases h with
  | bang h1 h2 =>
    unfold processTag
    rw [tw_bind, tw_getE]
    rw [h1, h2]
    rw [h1, h2] at hQ
    simp only []
    rw [tw_writeTagHandle]
    have := hQ (s.column + (lead s).length + [33].length)
    rw [← h1, ← h2] at this
    have e : tagWritten s.tagHandle s.tagSuffix = [33] := by rw [h1, h2]; rfl
    rw [e] at this
    exact this
  | tag h1 h2 h3 h4 h5 =>
    rename_i y
    rw [tw_processTag h1]
    have := hQ (s.column + (lead s).length + (tagForm s.tagHandle y).length)
    have e : tagWritten s.tagHandle s.tagSuffix = tagForm s.tagHandle y := by
      rw [h1]; cases s.tagHandle <;> rfl
    rw [e] at this
    exact this

theorem tw_processTag_none {s : Emitter} (h1 : s.tagHandle = none) (h2 : s.tagSuffix = none) {Q : Unit → Text → Emitter → Prop}
    (hQ : Q () [] s) : tw processTag Q s := by
  unfold processTag
  rw [tw_bind, tw_getE, h1, h2]
  exact hQ

theorem tw_processAnchor_none {s : Emitter} (h1 : s.anchor = none) {Q : Unit → Text → Emitter → Prop} (hQ : Q () [] s) : tw processAnchor Q s := by
  unfold processAnchor
  rw [tw_bind, tw_getE, h1]
  exact hQ

/-- The properties of a node. -/
theorem tw_props {T : List TagDir} {lb : Break} {s : Emitter} {a t : Option Text} (h : PropNote T s a t) {k : Unit → EM Unit} {Q : Unit → Text → Emitter → Prop}
    (hQ : ∀ x s', PropOut T lb a t s x s' → tw (k ()) (fun _ u s'' => Q () (x ++ u) s'') s') : tw (do processAnchor; processTag; k ()) Q s := by
  obtain ⟨h1, h2, h3, h4⟩ := h
  rw [tw_bind]
  cases a with
  | none =>
    refine tw_processAnchor_none h1 ?_
    rw [tw_bind]
    cases t with
    | none =>
      cases h4 with
      | none h5 h6 =>
        exact tw_processTag_none h5 h6 (hQ _ _ (.inl ⟨rfl, rfl, rfl, rfl⟩))
    | some t =>
      obtain ⟨⟨hd, y, g1, g2⟩, g3, g4⟩ := tagNote_scan lb h4
      refine tw_processTag_note h4 fun c => hQ _ _ (.inr ⟨_, _, rfl, ⟨g1, g3, .tag g2, by simp⟩, ?_, rfl, rfl, rfl⟩)
      unfold Emitter.propLen; omega
  | some a =>
    obtain ⟨hne, ha⟩ := h2 a rfl
    have hreal := h3 a rfl
    have hlen := length_le_strLen a
    have hl : optLen s.anchor = strLen a := by rw [h1]; rfl
    have hnb : NoBreaks (38 :: a) := by
      intro c hc
      rcases List.mem_cons.mp hc with rfl | hc
      · decide
      · exact noBreaks_alpha (ha c hc)
    have e38 : (if s.anchorIsAlias = true then 42 else 38) = 38 := by rw [hreal]; rfl
    rw [tw_processAnchor h1, e38]
    rw [tw_bind]
    cases t with
    | none =>
      cases h4 with
      | none h5 h6 =>
        refine tw_processTag_none (s := { s with column := s.column + (lead s).length + 1 + a.length, whitespace := false, indention := false }) h5 h6 ?_
        have := hQ (lead s ++ 38 :: a) { s with column := s.column + (lead s).length + 1 + a.length, whitespace := false, indention := false }
          (.inr ⟨38 :: a, [.anchor a], rfl, ⟨fun flow ind => leaf_anchor ha hne, hnb, .anchor a, by simp⟩, by
            unfold Emitter.propLen; simp only [List.length_cons]; omega, rfl, rfl, rfl⟩)
        exact this
    | some t =>
      obtain ⟨⟨hd, y, g1, g2⟩, g3, g4⟩ := tagNote_scan lb h4
      refine tw_processTag_note (s := { s with column := s.column + (lead s).length + 1 + a.length, whitespace := false, indention := false }) h4 fun c => ?_
      have := hQ (lead s ++ (38 :: a ++ 32 :: tagWritten s.tagHandle s.tagSuffix)) { s with column := c, whitespace := false, indention := false }
          (.inr ⟨38 :: a ++ 32 :: tagWritten s.tagHandle s.tagSuffix, [.anchor a] ++ [.tag hd y], rfl,
            ⟨fun flow ind => (leaf_anchor ha hne).comp hnb (g1 flow ind), ?_, .anchorTag g2, by simp⟩, ?_, rfl, rfl, rfl⟩)
      · have e : ∀ b u : Text, lead s ++ 38 :: a ++ (([0x20] ++ b) ++ u) = lead s ++ (38 :: a ++ 32 :: b) ++ u := by intro b u; simp
        have e2 : ∀ u, lead s ++ 38 :: a ++ (lead { s with column := s.column + (lead s).length + 1 + a.length, whitespace := false, indention := false } ++
            tagWritten s.tagHandle s.tagSuffix ++ u) = lead s ++ (38 :: a ++ 32 :: tagWritten s.tagHandle s.tagSuffix) ++ u := fun u => e _ u
        refine tw_mono this fun _ u s'' h => ?_
        rw [e2]
        exact h
      · refine noBreaks_append hnb fun c hc => ?_
        rcases List.mem_cons.mp hc with rfl | hc
        · decide
        · exact g3 c hc
      · unfold Emitter.propLen
        simp only [List.length_append, List.length_cons]
        omega

end LibYaml
