import Verif.Spec.Language
import Verif.Proofs.LexComplete
import Verif.Props.Pipeline

/-!
How deep the scanner is: between two tokens, the number of block and flow collections it has open is the number of those that are open
after some of the lexemes of the text.
-/

namespace LibYaml

open Spec

/-- Faults are excluded: every failure is an error reported to the caller. -/
local notation "safe" m:max Q:max s:max i:max => pw m Q Fail.reported s i

variable {T : List Nat} {e : Option Fail} {D : List Token} {s : Scanner} {i : In} {f : Nat}

/-! ### The depth of a short text -/

theorem Spec.TagText.shrinks {cs h v rest : List Nat} (ht : TagText cs h v rest) : rest.length < cs.length := by
  cases ht with
  | verbatim _ hu => have := hu.suffix.length_le; simp at this ⊢; omega
  | named _ _ _ hu => have := hu.suffix.length_le; simp at this ⊢; omega
  | primary _ _ _ _ hu => have := hu.suffix.length_le; simp; omega
  | bare _ _ _ _ hu => have := hu.suffix.length_le; simp; omega

theorem Spec.Lexeme.shrinks {flow : Bool} {indent : Int} {col : Nat} {cs mid rest : List Nat} {d : TokData} {line : Bool}
    (h : Lexeme flow indent col cs d mid rest line) (hd : d ≠ .streamEnd) : rest.length < cs.length := by
  have hsuf := h.suffix
  cases h with
  | streamEnd => exact absurd rfl hd
  | version _ h => have := h.suffix; have := this.1.length_le; have := hsuf.2.length_le; simp; omega
  | tagDirective _ h => have := h.suffix; have := this.1.length_le; have := hsuf.2.length_le; simp; omega
  | documentStart => simp
  | documentEnd => simp
  | flowSequenceStart => simp
  | flowMappingStart => simp
  | flowSequenceEnd => simp
  | flowMappingEnd => simp
  | flowEntry => simp
  | blockEntry => simp
  | key => simp
  | value => simp
  | anchor h => obtain ⟨rfl, _⟩ := h; simp; omega
  | «alias» h => obtain ⟨rfl, _⟩ := h; simp; omega
  | tag h => exact h.1.shrinks
  | literal _ h => have := h.suffix; have := this.1.length_le; have := hsuf.2.length_le; simp; omega
  | folded _ h => have := h.suffix; have := this.1.length_le; have := hsuf.2.length_le; simp; omega
  | single h => have := h.suffix.length_le; simp; omega
  | double h => have := h.suffix.length_le; simp; omega
  | plain _ _ _ h =>
    obtain ⟨a, b, rfl, rfl, _, a', c, rfl, _⟩ := h
    simp; omega

theorem openBlocks_length {ls : List Lx} {cols : List Nat} : (openBlocks cols ls).length ≤ cols.length + ls.length := by
  induction ls generalizing cols with
  | nil => exact Nat.le_refl _
  | cons l ls ih =>
    have h1 : (l.within cols).length ≤ cols.length := by
      unfold Lx.within
      split
      · exact (List.dropWhile_suffix _).length_le
      · exact Nat.le_refl _
    have h2 : (l.leaves (l.within cols)).length ≤ (l.within cols).length + 1 := by
      unfold Lx.leaves
      split
      · simp
      · split <;> simp
    have := ih (cols := l.leaves (l.within cols))
    simp only [openBlocks, List.length_cons]
    omega

theorem Spec.Lexed.count {ls : List Lx} {u : List Nat} {lv : Nat} {key : Bool} (h : Lexed T ls u lv key) :
    ls.length ≤ u.length + 1 ∧ ((∀ x ∈ ls, x.data ≠ .streamEnd) → ls.length ≤ u.length) := by
  induction h with
  | start => simp
  | @next ls u lv key w v x mid rest key' kd line ls' d h hno hT hf hl hx hm hk hn ih =>
    have h1 := ih.2 hno
    have h2 := marked_length hm
    simp only [List.length_append, List.length_cons, List.length_nil]
    refine ⟨by omega, fun hall => ?_⟩
    have h3 := hl.shrinks (by simpa using hall _ (List.mem_append.mpr (.inr (List.mem_singleton.mpr rfl))))
    rw [List.length_append] at h3
    omega

/-- A text cannot be nested deeper than about twice its length. -/
theorem shallow_of_short {text : List Nat} {n : Int} (h : ((2 * text.length + 1 : Nat) : Int) < n) : ShallowText text n := by
  intro ls u lv key hl
  have h1 := hl.count.1
  have h2 := hl.level_le
  have h3 := openBlocks_length (ls := ls) (cols := [])
  have h4 : u.length ≤ text.length := by
    obtain ⟨r, hr⟩ : ∃ r, text ++ [0] = u ++ r := by
      cases hl with
      | start => exact ⟨_, rfl⟩
      | next _ _ hT => exact ⟨_, by rw [hT]; simp [List.append_assoc]; rfl⟩
    have := hl.nul (r := r) (by simp) hr
    have := congrArg List.length hr
    cases r with
    | nil => simp_all
    | cons c r => simp at this; omega
  simp only [List.length_nil] at h3
  omega

/-! ### The depth of the scanner -/

/-- The depth is that of some lexemes of the text. -/
def DepthOk (T : List Nat) (s : Scanner) : Prop :=
  ∃ ls u lv key, Lexed T ls u lv key ∧ s.indents.length + s.flowLevel = (openBlocks [] ls).length + lv

theorem LexEnd.depth (h : LexEnd T D s) : DepthOk T s := by
  obtain ⟨S, ls, u, _, h1, _, h3⟩ := h
  exact ⟨ls, u, _, _, h1, by rw [h3]⟩

theorem LexNext.depth (h : LexNext T e D s i) : DepthOk T s := by
  cases h with
  | fresh hD h => exact ⟨[], [], 0, true, .start, by rw [h.eq]; rfl⟩
  | running h hx =>
    obtain ⟨S, ls, u, _, h1, _, h3⟩ := hx
    exact ⟨ls, u, _, _, h1, by rw [h3.depth]⟩
  | ended h hx hn => exact hx.depth

/-- The states over the text that occur. -/
def TextState (T : List Nat) (y : Scanner × In) : Prop :=
  y.2.bad = none ∧ ((∃ D, LexNext T none D y.1 y.2) ∨ (Over y.1 y.2 ∧ DepthOk T y.1))

theorem textState_feeds {x y : Scanner × In} {d : List Token} (hf : T.length + 2 < f) (hx : TextState T x) (h : Feeds (textSrc f) x d y) : TextState T y := by
  have hb : BadOk none := by intro er h; cases h
  induction h with
  | nil => exact hx
  | @snoc ts z t w h1 h2 ih =>
    obtain ⟨g1, g2⟩ := ih
    have hn : (textSrc f).next z = match (nextToken f z.1).run z.2 with
      | .error e => .error e
      | .ok ((t, s), i) => .ok (t, (s, i)) := rfl
    rw [hn] at h2
    have key : safe (nextToken f) (fun _ s' i' => (∃ D, LexNext T none D s' i') ∨ (Over s' i' ∧ DepthOk T s')) z.1 z.2 := by
      rcases g2 with ⟨D, g2⟩ | ⟨g2, g3⟩
      · have hnext : LibYaml.Next T none D z.1 z.2 := by
          cases g2 with
          | fresh hD h => exact .fresh hD h
          | running h _ => exact .running h
          | ended h _ _ => exact .ended h
        refine pw_mono (pw_and (lex_nextToken hb g2 hf) (nextToken_reported hb hnext hf)) ?_ (fun _ h => h.1.1)
        rintro t' s' i' ⟨k1, k2⟩
        cases k1 with
        | running hr hx ht => exact .inl ⟨_, .running hr hx⟩
        | ended hr hx hn ht => exact .inl ⟨_, .ended hr hx hn⟩
        | done ht hx he =>
          cases k2 with
          | running _ hne => exact absurd ht hne
          | ended _ hne => exact absurd ht hne
          | done _ _ hr he hs => exact .inr ⟨⟨hr, he, hs⟩, hx.depth⟩
      · refine pw_mono (safe_nextOver (by omega) (by rw [g1]; exact hb) g2) ?_ (fun _ h => h)
        rintro t' s' i' ⟨_, k2, _, k4, k5⟩
        obtain ⟨ls, u, lv, key, k6, k7⟩ := g3
        exact .inr ⟨k2, ls, u, lv, key, k6, by rw [k4, k5, k7]⟩
    unfold pw at key
    cases hr : (nextToken f z.1).run z.2 with
    | error er => rw [hr] at h2; cases h2
    | ok r =>
      obtain ⟨⟨t', s'⟩, i'⟩ := r
      rw [hr] at key h2
      cases h2
      exact ⟨by rw [← g1]; exact Prog.run_bad _ _ hr, key⟩

theorem TextState.depth {y : Scanner × In} (h : TextState T y) : DepthOk T y.1 := by
  obtain ⟨_, ⟨D, h⟩ | ⟨_, h⟩⟩ := h
  · exact h.depth
  · exact h

/-- The tokens that calls of `yaml_parser_scan` return are those that the parser gets. -/
theorem feeds_of_scanRun {o : Oracle} {enc : Option Enc} {bytes : List UInt8} {D : List Token} {k : Nat}
    (h : (scanRun o f (scanStart enc bytes) k).1 = D.map .token) :
    Feeds (scannerSrc o f) ((scanStart enc bytes).scanner, (scanStart enc bytes).input) D
      ((scanRun o f (scanStart enc bytes) k).2.scanner, (scanRun o f (scanStart enc bytes) k).2.input) := by
  induction k generalizing D with
  | zero =>
    cases D with
    | nil => exact .nil _
    | cons t D => cases h
  | succ k ih =>
    have hc : scanRun o f (scanStart enc bytes) (k + 1) = ((scanRun o f (scanStart enc bytes) k).1 ++
        [(scanCall (onReader o) f (scanRun o f (scanStart enc bytes) k).2).1], (scanCall (onReader o) f (scanRun o f (scanStart enc bytes) k).2).2) := rfl
    rw [hc] at h ⊢
    rcases List.eq_nil_or_concat D with rfl | ⟨D', t, rfl⟩
    · simp at h
    · rw [List.concat_eq_append, List.map_append] at h
      obtain ⟨h1, h2⟩ := List.append_inj' h rfl
      rw [List.concat_eq_append]
      refine .snoc (ih h1) ?_
      simp only [List.map_cons, List.map_nil, List.cons.injEq, and_true] at h2
      generalize (scanRun o f (scanStart enc bytes) k).2 = st at h2 ⊢
      show (match onReader o (nextToken f) st.scanner st.input with
        | .error e => Except.error e
        | .ok ((t, s), st) => .ok (t, (s, st))) = _
      unfold scanCall at h2 ⊢
      split at h2
      · cases h2
      · rename_i hne
        rw [if_neg hne]
        cases hr : onReader o (nextToken f) st.scanner st.input with
        | error er => rw [hr] at h2; cases h2
        | ok r =>
          obtain ⟨⟨t', s'⟩, st'⟩ := r
          rw [hr] at h2
          cases h2
          rfl

end LibYaml
