import Verif.Proofs.LexKinds
import Verif.Proofs.LexStep
import Verif.Proofs.Suffix

/-!
# A text begins with at most one lexeme

The kind of a token is decided by the characters in front of it, and the lexer of the kind finds what there is.
-/

namespace LibYaml

open Spec

variable {m m' : Mark} {cs cs' : Text} {flow : Bool}

theorem dispatchChar_complete {k : Kind} {c : Nat} {r : Text} (h0 : c ≠ 0) (hz : 0 ∈ c :: r)
    (hk : KindIs flow m.column (c :: r) k) (hu : k ≠ .unknown ∧ k ≠ .streamEnd ∧ k ≠ .directive ∧ k ≠ .documentStart ∧ k ≠ .documentEnd) :
    Yields (dispatchChar flow c) m (c :: r) k m (c :: r) := by
  have hz' : 0 ∈ r := by simpa [Ne.symm h0] using hz
  have nw : ∀ {d : Nat}, ¬ isBlankz d = true ↔ ¬ White d := fun {d} => by rw [white_iff]
  cases k with
  | unknown => simp at hu
  | streamEnd => simp at hu
  | directive => simp at hu
  | documentStart => simp at hu
  | documentEnd => simp at hu
  | flowStart d =>
    rcases hk with ⟨rfl, _, e⟩ | ⟨rfl, _, e⟩ <;> cases e <;> simp [dispatchChar, y_pure]
  | flowEnd d =>
    rcases hk with ⟨rfl, _, e⟩ | ⟨rfl, _, e⟩ <;> cases e <;> simp [dispatchChar, y_pure]
  | flowEntry =>
    obtain ⟨_, e⟩ := hk
    cases e
    simp [dispatchChar, y_pure]
  | blockEntry =>
    obtain ⟨_, e, d, r', rfl, hw⟩ := hk
    cases e
    simp [dispatchChar, y_pure, y_bind, y_peek1]
    exact ⟨d, m, _, ⟨_, ⟨rfl, rfl⟩, by decide, rfl, rfl⟩, white_iff.mpr hw, rfl, rfl⟩
  | key =>
    obtain ⟨_, e, h⟩ := hk
    cases e
    rcases h with rfl | ⟨d, r', rfl, hw⟩
    · simp [dispatchChar, y_pure]
    · cases flow <;> simp [dispatchChar, y_pure, y_bind, y_peek1]
      exact ⟨d, m, _, ⟨_, ⟨rfl, rfl⟩, by decide, rfl, rfl⟩, white_iff.mpr hw, rfl, rfl⟩
  | value =>
    obtain ⟨_, e, h⟩ := hk
    cases e
    rcases h with rfl | ⟨d, r', rfl, hw⟩
    · simp [dispatchChar, y_pure]
    · cases flow <;> simp [dispatchChar, y_pure, y_bind, y_peek1]
      exact ⟨d, m, _, ⟨_, ⟨rfl, rfl⟩, by decide, rfl, rfl⟩, white_iff.mpr hw, rfl, rfl⟩
  | anchor a =>
    obtain ⟨_, e⟩ := hk
    cases a <;> cases e <;> simp [dispatchChar, y_pure]
  | tag =>
    obtain ⟨_, e⟩ := hk
    cases e
    simp [dispatchChar, y_pure]
  | block l =>
    obtain ⟨rfl, _, e⟩ := hk
    cases l <;> cases e <;> simp [dispatchChar, y_pure]
  | quoted q =>
    obtain ⟨_, e⟩ := hk
    cases q <;> cases e <;> simp [dispatchChar, y_pure]
  | plain =>
    obtain ⟨⟨_, _, e, h⟩, _⟩ := hk
    cases e
    rcases h with h | ⟨h, d, r', rfl, hw⟩
    · have hi := indicator_iff.mpr h
      have h := h.2
      simp only [List.mem_cons, List.not_mem_nil, or_false, not_or] at h
      simp [dispatchChar, y_pure, h, hi]
    · have hw : isBlankz d = false := by rw [← Bool.not_eq_true]; exact nw.mpr hw
      rcases h with rfl | ⟨rfl, rfl | rfl⟩ <;> (simp [dispatchChar, y_pure, y_bind, y_peek1]; exact ⟨d, m, _, ⟨_, ⟨rfl, rfl⟩, by decide, rfl, rfl⟩, hw, rfl, rfl⟩)

theorem plainFirst_cons {c : Nat} {r : Text} (h : PlainFirst flow (c :: r)) : c ≠ 0 ∧ c ≠ 0x25 := by
  obtain ⟨_, _, e, h⟩ := h
  cases e
  rcases h with h | ⟨h, _⟩
  · refine ⟨?_, ?_⟩ <;> rintro rfl
    · exact h.1 (.inr (.inr rfl))
    · simp at h
  · omega

theorem dispatch_complete {k : Kind} (hz : 0 ∈ cs) (hk : KindIs flow m.column cs k) (hu : k ≠ .unknown) :
    Yields (dispatch flow) m cs k m cs := by
  obtain ⟨b1, h1⟩ := docMark_total (m := m) (c := 45) (by decide) (by decide) hz
  obtain ⟨b2, h2⟩ := docMark_total (m := m) (c := 46) (by decide) (by decide) hz
  have k1 := (y_docMark (by decide) h1).2.2
  have k2 := (y_docMark (by decide) h2).2.2
  match cs, hz with
  | c :: r, hz =>
    unfold dispatch
    simp only [y_bind, y_get, y_peek0, y_ite, y_pure]
    refine ⟨c, m, _, ⟨r, rfl, rfl, rfl⟩, _, _, _, ⟨rfl, rfl, rfl⟩, ?_⟩
    by_cases h0 : c = 0
    · subst h0
      cases k <;> simp [KindIs, White] at hk hu
      · exact .inl ⟨rfl, rfl, rfl, rfl⟩
      all_goals (try (split at hk <;> omega))
      exact absurd rfl (plainFirst_cons hk.1).1
    · refine .inr ⟨by simpa [isZ] using h0, ?_⟩
      by_cases hp : m.column = 0 ∧ c = 0x25
      · obtain ⟨hc, rfl⟩ := hp
        refine .inl ⟨⟨hc, rfl⟩, ?_⟩
        cases k <;> simp [KindIs, White] at hk hu
        · exact ⟨rfl, rfl, rfl⟩
        all_goals (try (split at hk <;> omega))
        exact absurd rfl (plainFirst_cons hk.1).2
      · refine .inr ⟨hp, b1, m, _, h1, ?_⟩
        cases b1 with
        | true =>
          obtain ⟨hc, d, r', hw, e⟩ := k1.mp rfl
          refine .inl ⟨rfl, ?_⟩
          cases e
          cases k <;> simp [KindIs, Heads] at hk hu
          · exact ⟨rfl, rfl, rfl⟩
          · rw [white_iff.symm] at hk; exact absurd hk (by decide)
          all_goals (try (split at hk <;> omega))
          exact absurd ⟨hc, d, r', hw, .inl rfl⟩ hk.2
        | false =>
          refine .inr ⟨by simp, b2, m, _, h2, ?_⟩
          cases b2 with
          | true =>
            obtain ⟨hc, d, r', hw, e⟩ := k2.mp rfl
            refine .inl ⟨rfl, ?_⟩
            cases e
            cases k <;> simp [KindIs, Heads] at hk hu
            · exact ⟨rfl, rfl, rfl⟩
            all_goals (try (split at hk <;> omega))
            exact absurd ⟨hc, d, r', hw, .inr rfl⟩ hk.2
          | false =>
            refine .inr ⟨by simp, ?_⟩
            refine dispatchChar_complete h0 hz hk ⟨hu, ?_, ?_, ?_, ?_⟩ <;> rintro rfl
            · obtain ⟨_, e⟩ := hk
              cases e
              exact h0 rfl
            · obtain ⟨hc, _, e⟩ := hk
              cases e
              exact hp ⟨hc, rfl⟩
            · exact absurd (k1.mpr hk) (by simp)
            · exact absurd (k2.mpr hk) (by simp)

/-- The kind is determined. -/
theorem kind_unique {col : Nat} {k k' : Kind} (hz : 0 ∈ cs) (hk : KindIs flow col cs k) (hu : k ≠ .unknown)
    (hk' : KindIs flow col cs k') (hu' : k' ≠ .unknown) : k = k' :=
  (y_det (dispatch_complete (m := { column := col }) hz hk hu) (dispatch_complete (m := { column := col }) hz hk' hu')).1

/-- The kind of a lexeme. -/
def kindOf : TokData → Kind
  | .streamEnd => .streamEnd
  | .versionDirective _ | .tagDirective _ => .directive
  | .documentStart => .documentStart
  | .documentEnd => .documentEnd
  | .flowSequenceStart => .flowStart .flowSequenceStart
  | .flowMappingStart => .flowStart .flowMappingStart
  | .flowSequenceEnd => .flowEnd .flowSequenceEnd
  | .flowMappingEnd => .flowEnd .flowMappingEnd
  | .flowEntry => .flowEntry
  | .blockEntry => .blockEntry
  | .key => .key
  | .value => .value
  | .anchor _ => .anchor true
  | .alias _ => .anchor false
  | .tag _ _ => .tag
  | .scalar _ .literal => .block true
  | .scalar _ .folded => .block false
  | .scalar _ .single => .quoted true
  | .scalar _ .double => .quoted false
  | .scalar _ .plain => .plain
  | _ => .unknown

variable {indent : Int} {col : Nat} {d d' : TokData} {mid mid' rest rest' : Text} {line line' : Bool}

theorem lexeme_kind (h : Lexeme flow indent col cs d mid rest line) : KindIs flow col cs (kindOf d) ∧ kindOf d ≠ .unknown := by
  cases h with
  | streamEnd r => exact ⟨⟨_, rfl⟩, by simp [kindOf]⟩
  | version h0 _ => exact ⟨⟨h0, _, rfl⟩, by simp [kindOf]⟩
  | tagDirective h0 _ => exact ⟨⟨h0, _, rfl⟩, by simp [kindOf]⟩
  | documentStart d r h0 hw => exact ⟨⟨h0, _, _, hw, rfl⟩, by simp [kindOf]⟩
  | documentEnd d r h0 hw => exact ⟨⟨h0, _, _, hw, rfl⟩, by simp [kindOf]⟩
  | flowSequenceStart r => exact ⟨.inl ⟨rfl, _, rfl⟩, by simp [kindOf]⟩
  | flowMappingStart r => exact ⟨.inr ⟨rfl, _, rfl⟩, by simp [kindOf]⟩
  | flowSequenceEnd r => exact ⟨.inl ⟨rfl, _, rfl⟩, by simp [kindOf]⟩
  | flowMappingEnd r => exact ⟨.inr ⟨rfl, _, rfl⟩, by simp [kindOf]⟩
  | flowEntry r => exact ⟨⟨_, rfl⟩, by simp [kindOf]⟩
  | blockEntry r h => exact ⟨⟨_, rfl, h⟩, by simp [kindOf]⟩
  | key r h => exact ⟨⟨_, rfl, h⟩, by simp [kindOf]⟩
  | value r h => exact ⟨⟨_, rfl, h⟩, by simp [kindOf]⟩
  | anchor _ => exact ⟨⟨_, rfl⟩, by simp [kindOf]⟩
  | «alias» _ => exact ⟨⟨_, rfl⟩, by simp [kindOf]⟩
  | tag _ => exact ⟨⟨_, rfl⟩, by simp [kindOf]⟩
  | literal hf _ => exact ⟨⟨hf, _, rfl⟩, by simp [kindOf]⟩
  | folded hf _ => exact ⟨⟨hf, _, rfl⟩, by simp [kindOf]⟩
  | single _ => exact ⟨⟨_, rfl⟩, by simp [kindOf]⟩
  | double _ => exact ⟨⟨_, rfl⟩, by simp [kindOf]⟩
  | plain h1 h2 _ _ => exact ⟨⟨h1, h2⟩, by simp [kindOf]⟩

theorem anchor_unique {v v' : Text} (h : AnchorName cs v rest) (h' : AnchorName cs v' rest') : v = v' ∧ rest = rest' := by
  obtain ⟨_, _, _, y⟩ := (scanAnchor_iff (m := {}) (f := cs.length + 1) (anchor := true) (q := 0) (by omega)).mpr ⟨v, h, rfl⟩
  obtain ⟨_, _, _, y'⟩ := (scanAnchor_iff (m := {}) (f := cs.length + 1) (anchor := true) (q := 0) (by omega)).mpr ⟨v', h', rfl⟩
  obtain ⟨e, _, rfl⟩ := y_det y y'
  injection e with e _ _
  injection e with e
  exact ⟨e, rfl⟩

theorem tag_unique {a a' v v' : Text} (hz : 0 ∈ cs) (h : TagAt flow (0x21 :: cs) a v rest) (h' : TagAt flow (0x21 :: cs) a' v' rest') :
    a = a' ∧ v = v' ∧ rest = rest' := by
  obtain ⟨_, _, _, y⟩ := (scanTag_iff (m := {}) (f := cs.length + 2) hz (by omega)).mpr ⟨a, v, h, rfl⟩
  obtain ⟨_, _, _, y'⟩ := (scanTag_iff (m := {}) (f := cs.length + 2) hz (by omega)).mpr ⟨a', v', h', rfl⟩
  obtain ⟨e, _, rfl⟩ := y_det y y'
  injection e with e _ _
  injection e with e1 e2
  exact ⟨e1, e2, rfl⟩

theorem quoted_unique {single : Bool} {v v' : Text} (hz : 0 ∈ cs) (h : Quoted single (col + 1) cs v rest) (h' : Quoted single (col + 1) cs v' rest') :
    v = v' ∧ rest = rest' := by
  obtain ⟨_, _, _, y⟩ := (scanFlowScalar_iff (m := { column := col }) (f := cs.length + 1) (q := 0) hz (by omega)).mpr ⟨v, h, rfl⟩
  obtain ⟨_, _, _, y'⟩ := (scanFlowScalar_iff (m := { column := col }) (f := cs.length + 1) (q := 0) hz (by omega)).mpr ⟨v', h', rfl⟩
  obtain ⟨e, _, rfl⟩ := y_det y y'
  injection e with e _ _
  injection e with e _
  exact ⟨e, rfl⟩

theorem plain_unique {v v' : Text} (hz : 0 ∈ cs) (hd : ¬ DocAt col cs) (hc : ¬ ∃ r, cs = 0x23 :: r) (h : Plain flow (indent + 1) col cs v rest line)
    (h' : Plain flow (indent + 1) col cs v' rest' line') : v = v' ∧ rest = rest' ∧ line = line' := by
  obtain ⟨_, _, _, y⟩ := (scanPlainScalar_iff (m := { column := col }) (f := cs.length + 1) hz (by omega) hd hc).mpr ⟨v, h, rfl⟩
  obtain ⟨_, _, _, y'⟩ := (scanPlainScalar_iff (m := { column := col }) (f := cs.length + 1) hz (by omega) hd hc).mpr ⟨v', h', rfl⟩
  obtain ⟨e, _, rfl⟩ := y_det y y'
  injection e with e e2
  injection e with e _ _
  injection e with e _
  exact ⟨e, rfl, e2⟩

theorem suffix_same {a b c : Text} (h : a <:+ c) (h' : b <:+ c) (hl : a.length = b.length) : a = b :=
  (List.suffix_of_suffix_length_le h h' (by omega)).eq_of_length hl

theorem version_unique {j k j' k' : Nat} (h : VersionAt cs j k mid rest) (h' : VersionAt cs j' k' mid' rest') : j = j' ∧ k = k' ∧ mid = mid' ∧ rest = rest' := by
  obtain ⟨_, _, _, y, e1⟩ := scanDirective_version (m := {}) (f := cs.length + 1) (q := 0) (by omega) h
  obtain ⟨_, _, _, y', e2⟩ := scanDirective_version (m := {}) (f := cs.length + 1) (q := 0) (by omega) h'
  obtain ⟨e, _, rfl⟩ := y_det y y'
  injection e with e _ e3
  injection e with e
  injection e with e4 e5
  rw [e3] at e1
  exact ⟨e4, e5, suffix_same h.suffix.1 h'.suffix.1 (by omega), rfl⟩

theorem tagDir_unique {a p a' p' : Text} (h : TagDirAt cs a p mid rest) (h' : TagDirAt cs a' p' mid' rest') : a = a' ∧ p = p' ∧ mid = mid' ∧ rest = rest' := by
  obtain ⟨_, _, _, y, e1⟩ := scanDirective_tag (m := {}) (f := cs.length + 1) (q := 0) (by omega) h
  obtain ⟨_, _, _, y', e2⟩ := scanDirective_tag (m := {}) (f := cs.length + 1) (q := 0) (by omega) h'
  obtain ⟨e, _, rfl⟩ := y_det y y'
  injection e with e _ e3
  injection e with e
  injection e with e4 e5
  rw [e3] at e1
  exact ⟨e4, e5, suffix_same h.suffix.1 h'.suffix.1 (by omega), rfl⟩

theorem directive_unique {j k : Nat} {a p : Text} (h : VersionAt cs j k mid rest) (h' : TagDirAt cs a p mid' rest') : False := by
  obtain ⟨_, _, _, y, e1⟩ := scanDirective_version (m := {}) (f := cs.length + 1) (q := 0) (by omega) h
  obtain ⟨_, _, _, y', e2⟩ := scanDirective_tag (m := {}) (f := cs.length + 1) (q := 0) (by omega) h'
  obtain ⟨e, _, _⟩ := y_det y y'
  injection e with e _ e3
  cases e

/-- The white space behind the text. -/
theorem trimmed_le (h : Trimmed cs mid rest) (h' : Trimmed cs mid' rest) : mid'.length ≤ mid.length := by
  obtain ⟨a, b, e1, e2, hb, x, c, rfl, hc⟩ := h
  obtain ⟨a', b', e1', e2', hb', x', c', rfl, hc'⟩ := h'
  refine Nat.le_of_not_lt fun hl => ?_
  have he := e1.symm.trans e1'
  have hla : (x' ++ [c']).length < (x ++ [c]).length := by
    have := congrArg List.length he
    simp at this ⊢
    omega
  rw [e2, e2'] at he
  -- the last character of the longer one is white space of the other
  have h1 : c ∈ b' := by
    have hl' : b.length < b'.length := by rw [e2, e2'] at hl; simp at hl; exact hl
    have g := congrArg (fun l => l[x.length]?) he
    have e3 : x.length - (x'.length + 1) < b'.length := by
      have := congrArg List.length he
      simp at this hla
      omega
    have e4 : x'.length + 1 ≤ x.length := by simp at hla; omega
    simp only [List.append_assoc, List.singleton_append] at g
    rw [List.getElem?_append_right (Nat.le_refl _), List.getElem?_append_right (by omega)] at g
    obtain ⟨n, hn⟩ : ∃ n, x.length - x'.length = n + 1 := ⟨x.length - x'.length - 1, by omega⟩
    rw [hn] at g
    simp only [Nat.sub_self, List.getElem?_cons_zero, List.getElem?_cons_succ] at g
    rw [List.getElem?_append_left (by omega)] at g
    exact List.mem_of_getElem? g.symm
  rcases hb' c h1 with h | h
  · exact hc (.inl h)
  · exact hc (.inr (.inl h))

theorem trimmed_unique (h : Trimmed cs mid rest) (h' : Trimmed cs mid' rest) : mid = mid' := by
  have hl : mid.length = mid'.length := Nat.le_antisymm (trimmed_le h' h) (trimmed_le h h')
  obtain ⟨a, _, e, _⟩ := h
  obtain ⟨a', _, e', _⟩ := h'
  exact suffix_same (c := cs) ⟨a, e.symm⟩ ⟨a', e'.symm⟩ hl

theorem plainFirst_noComment (h : PlainFirst flow cs) : ¬ ∃ r, cs = 0x23 :: r := by
  rintro ⟨r, rfl⟩
  obtain ⟨_, _, e, h⟩ := h
  cases e
  simp at h

/-- A text begins with at most one lexeme. -/
theorem lexeme_unique (hz : 0 ∈ cs) (h : Lexeme flow indent col cs d mid rest line) (h' : Lexeme flow indent col cs d' mid' rest' line') :
    d = d' ∧ mid = mid' ∧ rest = rest' ∧ line = line' := by
  have hk : kindOf d = kindOf d' := by
    obtain ⟨a, b⟩ := lexeme_kind h
    obtain ⟨a', b'⟩ := lexeme_kind h'
    exact kind_unique hz a b a' b'
  cases h with
  | streamEnd r => cases h' <;> first | exact ⟨rfl, rfl, rfl, rfl⟩ | (simp [kindOf] at hk)
  | version h0 h =>
    cases h' with
    | version _ h' => obtain ⟨rfl, rfl, rfl, rfl⟩ := version_unique h h'; exact ⟨rfl, rfl, rfl, rfl⟩
    | tagDirective _ h' => exact absurd (directive_unique h h') id
    | plain => simp [kindOf] at hk
  | tagDirective h0 h =>
    cases h' with
    | version _ h' => exact absurd (directive_unique h' h) id
    | tagDirective _ h' => obtain ⟨rfl, rfl, rfl, rfl⟩ := tagDir_unique h h'; exact ⟨rfl, rfl, rfl, rfl⟩
    | plain => simp [kindOf] at hk
  | documentStart d r h0 hw => cases h' <;> first | exact ⟨rfl, rfl, rfl, rfl⟩ | (simp [kindOf] at hk)
  | documentEnd d r h0 hw => cases h' <;> first | exact ⟨rfl, rfl, rfl, rfl⟩ | (simp [kindOf] at hk)
  | flowSequenceStart r => cases h' <;> first | exact ⟨rfl, rfl, rfl, rfl⟩ | (simp [kindOf] at hk)
  | flowMappingStart r => cases h' <;> first | exact ⟨rfl, rfl, rfl, rfl⟩ | (simp [kindOf] at hk)
  | flowSequenceEnd r => cases h' <;> first | exact ⟨rfl, rfl, rfl, rfl⟩ | (simp [kindOf] at hk)
  | flowMappingEnd r => cases h' <;> first | exact ⟨rfl, rfl, rfl, rfl⟩ | (simp [kindOf] at hk)
  | flowEntry r => cases h' <;> first | exact ⟨rfl, rfl, rfl, rfl⟩ | (simp [kindOf] at hk)
  | blockEntry r h => cases h' <;> first | exact ⟨rfl, rfl, rfl, rfl⟩ | (simp [kindOf] at hk)
  | key r h => cases h' <;> first | exact ⟨rfl, rfl, rfl, rfl⟩ | (simp [kindOf] at hk)
  | value r h => cases h' <;> first | exact ⟨rfl, rfl, rfl, rfl⟩ | (simp [kindOf] at hk)
  | anchor h =>
    cases h' with
    | anchor h' => obtain ⟨rfl, rfl⟩ := anchor_unique h h'; exact ⟨rfl, rfl, rfl, rfl⟩
    | plain => simp [kindOf] at hk
  | «alias» h =>
    cases h' with
    | «alias» h' => obtain ⟨rfl, rfl⟩ := anchor_unique h h'; exact ⟨rfl, rfl, rfl, rfl⟩
    | plain => simp [kindOf] at hk
  | tag h =>
    cases h' with
    | tag h' => obtain ⟨rfl, rfl, rfl⟩ := tag_unique (by simpa using hz) h h'; exact ⟨rfl, rfl, rfl, rfl⟩
    | plain => simp [kindOf] at hk
  | literal hf h =>
    cases h' with
    | literal _ h' => obtain ⟨rfl, rfl, rfl⟩ := blockScalar_unique h h'; exact ⟨rfl, rfl, rfl, rfl⟩
    | plain => simp [kindOf] at hk
  | folded hf h =>
    cases h' with
    | folded _ h' => obtain ⟨rfl, rfl, rfl⟩ := blockScalar_unique h h'; exact ⟨rfl, rfl, rfl, rfl⟩
    | plain => simp [kindOf] at hk
  | single h =>
    cases h' with
    | single h' => obtain ⟨rfl, rfl⟩ := quoted_unique (by simpa using hz) h h'; exact ⟨rfl, rfl, rfl, rfl⟩
    | plain => simp [kindOf] at hk
  | double h =>
    cases h' with
    | double h' => obtain ⟨rfl, rfl⟩ := quoted_unique (by simpa using hz) h h'; exact ⟨rfl, rfl, rfl, rfl⟩
    | plain => simp [kindOf] at hk
  | plain h1 h2 h3 h4 =>
    cases h' with
    | plain _ _ h3' h4' =>
      obtain ⟨rfl, rfl, rfl⟩ := plain_unique hz h2 (plainFirst_noComment h1) h3 h3'
      exact ⟨rfl, trimmed_unique h4 h4', rfl, rfl⟩
    | _ => simp [kindOf] at hk

end LibYaml
