import Verif.Proofs.Scanner

/-! A required simple key is never dropped without an error. -/

namespace LibYaml

open Spec

/-- `k` is a pending simple key that must be completed. -/
def Pending (s : Scanner) (k : SimpleKey) : Prop := k ∈ s.keys ∧ k.possible = true ∧ k.required = true

/-- A KEY token stands for it. -/
def Keyed (ts : List Token) (k : SimpleKey) : Prop := ∃ t ∈ ts, implicitKey t ∧ t.start = k.mark

structure Kept (s s' : Scanner) : Prop where
  keys : ∀ k, Pending s k → Pending s' k ∨ Keyed s'.tokens k
  toks : ∀ t ∈ s.tokens, t ∈ s'.tokens

theorem Kept.refl (s : Scanner) : Kept s s := ⟨fun _ h => .inl h, fun _ h => h⟩

theorem Kept.trans {a b c : Scanner} (h1 : Kept a b) (h2 : Kept b c) : Kept a c := by
  refine ⟨fun k hk => ?_, fun t ht => h2.toks t (h1.toks t ht)⟩
  rcases h1.keys k hk with h | ⟨t, ht, h⟩
  · exact h2.keys k h
  · exact .inr ⟨t, h2.toks t ht, h⟩

/-- Same keys, and no token lost. -/
theorem Kept.of_keys {s s' : Scanner} (hk : s'.keys = s.keys) (ht : ∀ t ∈ s.tokens, t ∈ s'.tokens) : Kept s s' :=
  ⟨fun k h => .inl ⟨by rw [hk]; exact h.1, h.2⟩, ht⟩

def keeps {α : Type} (x : SM α) : Prop := ∀ s i, pw x (fun _ s' _ => Kept s s') (fun _ => True) s i

def keepsAct (g : Scanner → Except Fail Scanner) : Prop := ∀ s s', g s = .ok s' → Kept s s'

theorem keeps_bind {α β : Type} {x : SM α} {y : α → SM β} (hx : keeps x) (hy : ∀ a, keeps (y a)) :
    keeps (x >>= y) := by
  intro s i
  rw [pw_bind]
  refine pw_mono (hx s i) (fun a s' i' h => ?_) (fun _ _ => trivial)
  exact pw_mono (hy a s' i') (fun b s'' i'' h' => h.trans h') (fun _ _ => trivial)

theorem keeps_pure {α : Type} (a : α) : keeps (pure a : SM α) := fun s i => Kept.refl s

theorem keeps_get : keeps (get : SM Scanner) := fun s i => Kept.refl s

theorem keeps_ite {α : Type} {c : Prop} [Decidable c] {x y : SM α} (hx : keeps x) (hy : keeps y) : keeps (if c then x else y) := by
  split
  · exact hx
  · exact hy

theorem keeps_act {g : Scanner → Except Fail Scanner} (h : keepsAct g) : keeps (act g) := fun s i =>
  pw_act (fun s' hs => h s s' hs) (fun _ _ => trivial)

theorem keeps_lex {α : Type} (x : Lex α) : keeps (lex x) := by
  intro s i
  refine pw_lex ?_
  unfold pw
  split
  · exact Kept.of_keys rfl fun _ h => h
  · trivial

theorem keeps_fail {α : Type} (f : Scanner → Fail) : keeps (fun s => .fail (f s) : SM α) := fun _ _ => trivial

/-! ### The actions -/

theorem keepsAct_enqueue (t : Token) : keepsAct (Scanner.enqueue t) := by
  intro s s' h; cases h
  exact Kept.of_keys rfl fun t h => by simp [h]

theorem keepsAct_allow (g : Scanner → Bool) : keepsAct (fun s => s.allow (g s)) := by
  intro s s' h; cases h
  exact Kept.of_keys rfl fun t h => h

theorem kept_top {s : Scanner} {k k' : SimpleKey} {ks : List SimpleKey} (hk : s.keys = k :: ks)
    (hp : ¬ (k.possible = true ∧ k.required = true)) : Kept s { s with keys := k' :: ks } := by
  refine ⟨fun x hx => .inl ?_, fun t h => h⟩
  obtain ⟨h1, h2, h3⟩ := hx
  rw [hk] at h1
  rcases List.mem_cons.mp h1 with rfl | h1
  · exact absurd ⟨h2, h3⟩ hp
  · exact ⟨by simp [h1], h2, h3⟩

theorem removeKey_ok {s s' : Scanner} (h : s.removeKey = .ok s') : ∃ k ks, s.keys = k :: ks ∧
    ¬ (k.possible = true ∧ k.required = true) ∧ s' = { s with keys := { k with possible := false } :: ks } := by
  unfold Scanner.removeKey at h
  cases hk : s.keys with
  | nil => rw [hk] at h; cases h
  | cons k ks =>
    rw [hk] at h
    simp only at h
    split at h
    · cases h
    · rename_i hp
      cases h
      exact ⟨k, ks, rfl, by simpa using hp, rfl⟩

theorem keepsAct_removeKey : keepsAct Scanner.removeKey := by
  intro s s' h
  obtain ⟨k, ks, hk, hp, rfl⟩ := removeKey_ok h
  exact kept_top hk hp

theorem keepsAct_saveKey : keepsAct Scanner.saveKey := by
  intro s s' h
  unfold Scanner.saveKey at h
  split at h
  · cases hr : s.removeKey with
    | error e => rw [hr] at h; cases h
    | ok s1 =>
      obtain ⟨k, ks, hk, hp, rfl⟩ := removeKey_ok hr
      rw [hr] at h
      cases h
      exact kept_top hk hp
  · cases h; exact Kept.refl _

theorem staleKeys_kept {m : Mark} {ks ks' : List SimpleKey} (h : staleKeys m ks = .ok ks') :
    ∀ k ∈ ks, k.possible = true → k.required = true → k ∈ ks' ∧ k.stale m = false := by
  induction ks generalizing ks' with
  | nil => intro k hk; cases hk
  | cons x ks ih =>
    unfold staleKeys at h
    cases hr : staleKeys m ks with
    | error e => rw [hr] at h; cases h
    | ok ks1 =>
      rw [hr] at h
      simp only at h
      intro k hk hp hq
      split at h
      · split at h
        · cases h
        · rename_i hnr
          cases h
          rcases List.mem_cons.mp hk with rfl | hk
          · exact absurd hq hnr
          · have := ih hr k hk hp hq; exact ⟨by simp [this.1], this.2⟩
      · rename_i hns
        cases h
        rcases List.mem_cons.mp hk with rfl | hk
        · exact ⟨by simp, by simpa using hns⟩
        · have := ih hr k hk hp hq; exact ⟨by simp [this.1], this.2⟩

theorem keepsAct_stale : keepsAct Scanner.stale := by
  intro s s' h
  unfold Scanner.stale at h
  cases hr : staleKeys s.mark s.keys with
  | error e => rw [hr] at h; cases h
  | ok ks =>
    rw [hr] at h; cases h
    exact ⟨fun k hk => .inl ⟨(staleKeys_kept hr k hk.1 hk.2.1 hk.2.2).1, hk.2⟩, fun t h => h⟩

theorem keepsAct_increaseFlow : keepsAct Scanner.increaseFlow := by
  intro s s' h
  unfold Scanner.increaseFlow at h
  split at h
  · cases h
  · cases h
    exact ⟨fun k hk => .inl ⟨by simp [hk.1], hk.2⟩, fun t h => h⟩

theorem keepsAct_insert (n : Nat) (t : Token) : keepsAct (Scanner.insert n t) := by
  intro s s' h
  unfold Scanner.insert at h
  split at h
  · cases h
  · cases h
    refine Kept.of_keys rfl fun x hx => ?_
    rw [← List.take_append_drop (n - s.tokensParsed) s.tokens] at hx
    simp only [List.mem_append, List.mem_cons] at hx ⊢
    rcases hx with h | h
    · exact .inl h
    · exact .inr (.inr h)

theorem rollIndent_keys {column : Nat} {number : Option Nat} {data : TokData} {mark : Mark} {s s' : Scanner}
    (h : s.rollIndent column number data mark = .ok s') : s'.keys = s.keys ∧ ∀ t ∈ s.tokens, t ∈ s'.tokens := by
  unfold Scanner.rollIndent at h
  split at h
  · cases h; exact ⟨rfl, fun _ h => h⟩
  · split at h
    · split at h
      · cases h
      · cases number with
        | none => cases h; exact ⟨rfl, fun t ht => by simp [ht]⟩
        | some n =>
          simp only at h
          have hk := keepsAct_insert n _ _ _ h
          refine ⟨?_, fun t ht => hk.toks t ht⟩
          unfold Scanner.insert at h
          split at h
          · cases h
          · cases h; rfl
    · cases h; exact ⟨rfl, fun _ h => h⟩

theorem keepsAct_startBlock (d : TokData) (p : String) : keepsAct (startBlock d p) := by
  intro s s' h
  unfold startBlock at h
  split at h
  · split at h
    · obtain ⟨h1, h2⟩ := rollIndent_keys h
      exact Kept.of_keys h1 h2
    · cases h
  · cases h; exact Kept.refl _

theorem unrollLoop_toks {column : Int} {mark : Mark} {ind : Int} {inds : List Int} {q : List Token}
    {r : Int × List Int × List Token} (h : unrollLoop column mark ind inds q = .ok r) : ∀ t ∈ q, t ∈ r.2.2 := by
  induction inds generalizing ind q with
  | nil =>
    unfold unrollLoop at h
    split at h
    · cases h
    · cases h; exact fun _ h => h
  | cons j js ih =>
    unfold unrollLoop at h
    split at h
    · intro t ht; exact ih h t (by simp [ht])
    · cases h; exact fun _ h => h

theorem keepsAct_unroll (g : Scanner → Int) : keepsAct (fun s => s.unrollIndent (g s)) := by
  intro s s' h
  simp only [Scanner.unrollIndent] at h
  split at h
  · cases h; exact Kept.refl _
  · cases hr : unrollLoop (g s) s.mark s.indent s.indents s.tokens with
    | error e => rw [hr] at h; cases h
    | ok r =>
      have := unrollLoop_toks hr
      rw [hr] at h
      cases h
      exact Kept.of_keys rfl this

theorem keepsAct_valueKey : keepsAct valueKey := by
  intro s s' h
  unfold valueKey at h
  cases hk : s.keys with
  | nil => rw [hk] at h; cases h
  | cons k ks =>
    rw [hk] at h
    simp only at h
    split at h
    · unfold Scanner.insertKey at h
      cases h1 : s.insert k.tokenNumber { data := .key, start := k.mark, stop := k.mark } with
      | error e => rw [h1] at h; cases h
      | ok s1 =>
        rw [h1] at h
        simp only at h
        have k1 := keepsAct_insert _ _ _ _ h1
        have kk : s1.keys = s.keys ∧ Keyed s1.tokens k := by
          unfold Scanner.insert at h1
          split at h1
          · cases h1
          · cases h1; exact ⟨rfl, _, List.mem_append_right _ (List.mem_cons_self ..), ⟨rfl, rfl⟩, rfl⟩
        cases h2 : s1.rollIndent k.mark.column (some k.tokenNumber) .blockMappingStart k.mark with
        | error e => rw [h2] at h; cases h
        | ok s2 =>
          obtain ⟨r1, r2⟩ := rollIndent_keys h2
          rw [h2] at h
          cases h
          have htok : ∀ t ∈ s.tokens, t ∈ s2.tokens := fun t ht => r2 t (k1.toks t ht)
          refine ⟨fun x hx => ?_, htok⟩
          obtain ⟨x1, x2⟩ := hx
          rw [hk] at x1
          rcases List.mem_cons.mp x1 with rfl | x1
          · obtain ⟨t, t1, t2⟩ := kk.2
            exact .inr ⟨t, r2 t t1, t2⟩
          · refine .inl ⟨?_, x2⟩
            rw [r1, kk.1, hk]
            exact List.mem_cons_of_mem _ x1
    · cases h1 : startBlock .blockMappingStart "mapping values are not allowed in this context" s with
      | error e => rw [h1] at h; cases h
      | ok s1 =>
        rw [h1] at h
        exact (keepsAct_startBlock _ _ _ _ h1).trans (keepsAct_allow (fun s => s.flowLevel == 0) _ _ h)

/-! ### The fetchers -/

theorem keeps_resetAll : keeps resetAll :=
  keeps_bind (keeps_act (keepsAct_unroll fun _ => -1)) fun _ =>
    keeps_bind (keeps_act keepsAct_removeKey) fun _ => keeps_act (keepsAct_allow fun _ => false)

theorem keeps_fetchIndicator (n : Nat) (d : TokData) : keeps (fetchIndicator n d) :=
  keeps_bind keeps_get fun _ => keeps_bind (keeps_lex _) fun _ => keeps_bind keeps_get fun _ =>
    keeps_act (keepsAct_enqueue _)

theorem keeps_allow (b : Bool) : keeps (act (Scanner.allow b)) := keeps_act (keepsAct_allow fun _ => b)

theorem keeps_fetchFlowEnd (d : TokData) : keeps (fetchFlowEnd d) := by
  intro s i
  unfold fetchFlowEnd
  rw [pw_bind]
  refine pw_act (fun s1 h1 => ?_) (fun _ _ => trivial)
  rw [pw_bind]
  refine pw_act (fun s2 h2 => ?_) (fun _ _ => trivial)
  have h12 : Kept s s2 := by
    obtain ⟨k, ks, hk, hp, rfl⟩ := removeKey_ok h1
    unfold Scanner.decreaseFlow at h2
    split at h2
    · cases h2; exact kept_top hk hp
    · cases h2
      refine ⟨fun x hx => .inl ?_, fun t h => h⟩
      obtain ⟨x1, x2, x3⟩ := hx
      rw [hk] at x1
      rcases List.mem_cons.mp x1 with rfl | x1
      · exact absurd ⟨x2, x3⟩ hp
      · exact ⟨x1, x2, x3⟩
  exact pw_mono (keeps_bind (keeps_allow false) (fun _ => keeps_fetchIndicator 1 d) s2 i)
    (fun _ _ _ h => h12.trans h) (fun _ _ => trivial)

theorem keeps_fetchKind (f : Nat) (kind : Kind) : keeps (fetchKind f kind) := by
  have hsave := keeps_act keepsAct_saveKey
  have hrem := keeps_act keepsAct_removeKey
  have hq := fun t => keeps_act (keepsAct_enqueue t)
  cases kind with
  | streamEnd =>
    refine keeps_bind (keeps_act fun s s' h => ?_) fun _ => keeps_bind keeps_resetAll fun _ => keeps_act fun s s' h => ?_
    · cases h; exact Kept.of_keys rfl fun _ h => h
    · exact keepsAct_enqueue _ s s' h
  | directive => exact keeps_bind keeps_resetAll fun _ => keeps_bind (keeps_lex _) fun t => hq t
  | documentStart => exact keeps_bind keeps_resetAll fun _ => keeps_fetchIndicator _ _
  | documentEnd => exact keeps_bind keeps_resetAll fun _ => keeps_fetchIndicator _ _
  | flowStart d =>
    exact keeps_bind hsave fun _ => keeps_bind (keeps_act keepsAct_increaseFlow) fun _ =>
      keeps_bind (keeps_allow true) fun _ => keeps_fetchIndicator _ _
  | flowEnd d => exact keeps_fetchFlowEnd d
  | flowEntry => exact keeps_bind hrem fun _ => keeps_bind (keeps_allow true) fun _ => keeps_fetchIndicator _ _
  | blockEntry =>
    exact keeps_bind (keeps_act (keepsAct_startBlock _ _)) fun _ => keeps_bind hrem fun _ =>
      keeps_bind (keeps_allow true) fun _ => keeps_fetchIndicator _ _
  | key =>
    exact keeps_bind (keeps_act (keepsAct_startBlock _ _)) fun _ => keeps_bind hrem fun _ =>
      keeps_bind (keeps_act (keepsAct_allow _)) fun _ => keeps_fetchIndicator _ _
  | value => exact keeps_bind (keeps_act keepsAct_valueKey) fun _ => keeps_fetchIndicator _ _
  | anchor a => exact keeps_bind hsave fun _ => keeps_bind (keeps_allow false) fun _ => keeps_bind (keeps_lex _) fun t => hq t
  | tag =>
    exact keeps_bind hsave fun _ => keeps_bind (keeps_allow false) fun _ => keeps_bind keeps_get fun _ =>
      keeps_bind (keeps_lex _) fun t => hq t
  | block l =>
    exact keeps_bind hrem fun _ => keeps_bind (keeps_allow true) fun _ => keeps_bind keeps_get fun _ =>
      keeps_bind (keeps_lex _) fun t => hq t
  | quoted q => exact keeps_bind hsave fun _ => keeps_bind (keeps_allow false) fun _ => keeps_bind (keeps_lex _) fun t => hq t
  | plain =>
    exact keeps_bind hsave fun _ => keeps_bind (keeps_allow false) fun _ => keeps_bind keeps_get fun _ =>
      keeps_bind (keeps_lex _) fun p => keeps_bind (keeps_act (keepsAct_allow fun s => p.2 || s.allowed)) fun _ => hq p.1
  | unknown => exact keeps_fail _

theorem keeps_fetchNext (f : Nat) : keeps (fetchNext f) := by
  unfold fetchNext
  refine keeps_bind (keeps_lex _) fun _ => keeps_bind keeps_get fun s => keeps_ite ?_ ?_
  · exact keeps_bind (keeps_lex _) fun a => keeps_bind (keeps_allow a) fun _ => keeps_bind (keeps_act keepsAct_stale) fun _ =>
      keeps_bind (keeps_act (keepsAct_unroll fun s => s.mark.column)) fun _ => keeps_bind (keeps_lex _) fun _ =>
      keeps_bind (keeps_lex _) fun kind => keeps_fetchKind f kind
  · refine keeps_act fun s s' h => ?_
    cases h
    exact ⟨fun k hk => .inl ⟨List.mem_cons_of_mem _ hk.1, hk.2⟩, fun t ht => List.mem_append_left _ ht⟩

theorem keeps_fetchMore (f n : Nat) : keeps (fetchMore f n) := by
  induction n with
  | zero => exact keeps_fail _
  | succ n ih =>
    unfold fetchMore
    refine keeps_bind keeps_get fun s => keeps_ite (keeps_bind (keeps_fetchNext f) fun _ => ih) ?_
    exact keeps_bind (keeps_act keepsAct_stale) fun _ => keeps_bind keeps_get fun s =>
      keeps_ite (keeps_bind (keeps_fetchNext f) fun _ => ih) (keeps_pure _)

/-- When `yaml_parser_fetch_more_tokens` succeeds, no pending key is stale. -/
theorem fetchMore_fresh (f n : Nat) (s : Scanner) (i : In) :
    pw (fetchMore f n) (fun _ s' _ => ∀ k, Pending s' k → k.stale s'.mark = false) (fun _ => True) s i := by
  induction n generalizing s i with
  | zero => exact trivial
  | succ n ih =>
    unfold fetchMore
    rw [pw_bind, pw_get]
    have hstep : ∀ s i, pw (do fetchNext f; fetchMore f n) (fun _ s' _ => ∀ k, Pending s' k → k.stale s'.mark = false)
        (fun _ => True) s i := by
      intro s i
      rw [pw_bind]
      exact pw_mono (keeps_fetchNext f s i) (fun _ s' i' _ => ih s' i') (fun _ _ => trivial)
    refine pw_ite (fun _ => hstep s i) (fun _ => ?_)
    rw [pw_bind]
    refine pw_act (fun s1 h1 => ?_) (fun _ _ => trivial)
    rw [pw_bind, pw_get]
    refine pw_ite (fun _ => hstep s1 i) (fun _ => ?_)
    show ∀ k, Pending s1 k → k.stale s1.mark = false
    unfold Scanner.stale at h1
    cases hr : staleKeys s.mark s.keys with
    | error e => rw [hr] at h1; cases h1
    | ok ks =>
      rw [hr] at h1; cases h1
      intro k hk
      have : ∀ {m : Mark} {ks ks' : List SimpleKey}, staleKeys m ks = .ok ks' → ∀ k ∈ ks', k.stale m = false := by
        intro m ks
        induction ks with
        | nil => intro ks' h; cases h; intro k hk; cases hk
        | cons x ks ih =>
          intro ks' h
          unfold staleKeys at h
          cases hr : staleKeys m ks with
          | error e => rw [hr] at h; cases h
          | ok ks1 =>
            rw [hr] at h
            simp only at h
            intro k hk
            split at h
            · split at h
              · cases h
              · cases h
                rcases List.mem_cons.mp hk with rfl | hk
                · simp [SimpleKey.stale]
                · exact ih hr k hk
            · rename_i hns
              cases h
              rcases List.mem_cons.mp hk with rfl | hk
              · simpa using hns
              · exact ih hr k hk
      exact this hr k hk.1

/-- One call: a required key is still pending and can still be completed, or a KEY token stands for it. -/
theorem nextToken_keeps (f : Nat) (s : Scanner) (i : In) :
    pw (nextToken f) (fun t s' _ => ∀ k, Pending s k →
      (Pending s' k ∧ k.stale s'.mark = false) ∨ Keyed (t :: s'.tokens) k) (fun _ => True) s i := by
  unfold nextToken
  rw [pw_bind]
  have h1 := keeps_fetchMore f f s i
  have h2 := fetchMore_fresh f f s i
  unfold pw at h1 h2 ⊢
  cases hr : (fetchMore f f s).run i with
  | error e => trivial
  | ok r =>
    obtain ⟨⟨_, s'⟩, i'⟩ := r
    rw [hr] at h1 h2
    simp only at h1 h2 ⊢
    cases ht : s'.tokens with
    | nil => simp only [Prog.run]
    | cons t ts =>
      simp only [Prog.run]
      intro k hk
      rcases h1.keys k hk with h | h
      · exact .inl ⟨h, h2 k h⟩
      · rw [ht] at h; exact .inr h

end LibYaml
