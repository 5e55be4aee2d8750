import Verif.Proofs.ScannerCalls

/-!
# Contexts of scanner errors do not lie after the problem

A statement about all branches of a program over the input, whatever the characters are: the mark never moves back, and an
error of the scanner is reported with the start of the token (or of the pending simple key) as context and the current mark
as problem.
-/

namespace LibYaml

open Spec

/-- Whatever is read: a result satisfies `Q`, a failure of the program itself satisfies `E`. -/
def Prog.Sat {α : Type} (Q : α → Prop) (E : Fail → Prop) : Prog α → Prop
  | .ret a => Q a
  | .fail e => E e
  | .cache _ k => k.Sat Q E
  | .look _ k => ∀ c, (k c).Sat Q E
  | .skip k => k.Sat Q E

theorem Prog.Sat.bind {α β : Type} {Q : α → Prop} {Q' : β → Prop} {E : Fail → Prop} {g : α → Prog β} {p : Prog α}
    (h : p.Sat Q E) (hg : ∀ a, Q a → (g a).Sat Q' E) : (p.bind g).Sat Q' E := by
  induction p with
  | ret a => exact hg a h
  | fail e => exact h
  | cache n k ih => exact ih h
  | look j k ih => exact fun c => ih c (h c)
  | skip k ih => exact ih h

theorem Prog.Sat.mono {α : Type} {Q Q' : α → Prop} {E E' : Fail → Prop} {p : Prog α} (h : p.Sat Q E) (hq : ∀ a, Q a → Q' a)
    (he : ∀ e, E e → E' e) : p.Sat Q' E' := by
  induction p with
  | ret a => exact hq a h
  | fail e => exact he e h
  | cache n k ih => exact ih h
  | look j k ih => exact fun c => ih c (h c)
  | skip k ih => exact ih h

/-- An error of a lexical function called at `start`. -/
def EO (start : Mark) (er : Fail) : Prop := ∀ c cm p pm, er = .scanner c cm p pm → cm = start ∧ start.index ≤ pm.index

/-- The mark does not move back; errors name `start`, and they occur at or after it. -/
def Grows {α : Type} (start : Mark) (p : Lex α) : Prop :=
  ∀ m : Mark, start.index ≤ m.index → (p m).Sat (fun r => m.index ≤ r.2.index) (EO start)

variable {α β : Type} {start : Mark}

theorem grows_bind {p : Lex α} {g : α → Lex β} (h : Grows start p) (hg : ∀ a, Grows start (g a)) : Grows start (p >>= g) := by
  intro m hm
  exact (h m hm).bind fun r hr => (hg r.1 r.2 (Nat.le_trans hm hr)).mono (fun _ h => Nat.le_trans hr h) fun _ => id

theorem grows_pure (a : α) : Grows start (pure a : Lex α) := fun _ _ => Nat.le_refl _
theorem grows_ite {c : Prop} [Decidable c] {p q : Lex α} (hp : Grows start p) (hq : Grows start q) : Grows start (if c then p else q) := by
  split <;> assumption
theorem grows_get : Grows start (get : Lex Mark) := fun _ _ => Nat.le_refl _
theorem grows_fuel : Grows start (fun _ => .fail .fuel : Lex α) := fun _ _ _ _ _ _ h => by cases h
theorem grows_cacheC (n : Nat) : Grows start (cacheC n) := fun _ _ => Nat.le_refl _
theorem grows_peekC (n : Nat) : Grows start (peekC n) := fun _ _ _ => Nat.le_refl _
theorem grows_skipC : Grows start skipC := fun m _ => Nat.le_succ m.index
theorem grows_passBreak : ∀ n, Grows start (passBreak n)
  | 0 => fun _ _ => Nat.le_refl _
  | n + 1 => fun m hm => (grows_passBreak n { m with index := m.index + 1 } (Nat.le_succ_of_le hm)).mono
    (fun _ h => Nat.le_of_succ_le h) fun _ => id
theorem grows_lexErr (c : Option String) (p : String) : Grows start (lexErr c start p : Lex α) :=
  fun _ hm _ _ _ _ h => by cases h; exact ⟨rfl, hm⟩

/-- One step of a proof that a lexical function only moves forward. -/
syntax "grow1" : tactic
set_option hygiene false in
macro_rules | `(tactic| grow1) => `(tactic| first
  | exact grows_pure _ | exact grows_get | exact grows_fuel | exact grows_cacheC _ | exact grows_peekC _
  | exact grows_skipC | exact grows_passBreak _ | exact grows_lexErr _ _ | apply ih
  | refine grows_bind ?_ (fun _ => ?_) | split)

/-- All the steps. -/
macro "grow" : tactic => `(tactic| repeat' (first
  | with_reducible refine grows_ite ?_ ?_ | with_reducible refine grows_bind ?_ (fun _ => ?_) | grow1))

attribute [local irreducible] Grows

theorem grows_skipLine : Grows start skipLine := by unfold skipLine; grow
macro_rules | `(tactic| grow1) => `(tactic| exact grows_skipLine)
theorem grows_readC (s : Text) : Grows start (readC s) := by unfold readC; grow
macro_rules | `(tactic| grow1) => `(tactic| exact grows_readC _)
theorem grows_readLine (s : Text) : Grows start (readLine s) := by unfold readLine; grow
macro_rules | `(tactic| grow1) => `(tactic| exact grows_readLine _)
theorem grows_skipWhile (p : Nat → Bool) (n : Nat) : Grows start (skipWhile p n) := by
  induction n with
  | zero => exact grows_fuel
  | succ n ih => unfold skipWhile; grow
macro_rules | `(tactic| grow1) => `(tactic| exact grows_skipWhile _ _)
theorem grows_readWhile (p : Nat → Bool) (n : Nat) : ∀ s, Grows start (readWhile p n s) := by
  induction n with
  | zero => exact fun _ => grows_fuel
  | succ n ih => intro s; unfold readWhile; grow
macro_rules | `(tactic| grow1) => `(tactic| exact grows_readWhile _ _ _)
theorem grows_checkSeq (l : List Nat) : ∀ j, Grows start (checkSeq j l) := by
  induction l with
  | nil => exact fun _ => grows_pure _
  | cons a l ih => intro j; unfold checkSeq; grow
macro_rules | `(tactic| grow1) => `(tactic| exact grows_checkSeq _ _)
theorem grows_skipComment (n : Nat) : Grows start (skipComment n) := by unfold skipComment; grow
macro_rules | `(tactic| grow1) => `(tactic| exact grows_skipComment _)
theorem grows_docMark (c : Nat) : Grows start (docMark c) := by unfold docMark; grow
macro_rules | `(tactic| grow1) => `(tactic| exact grows_docMark _)
theorem grows_docIndicator : Grows start docIndicator := by unfold docIndicator; grow
macro_rules | `(tactic| grow1) => `(tactic| exact grows_docIndicator)
theorem grows_skipBom : Grows start skipBom := by unfold skipBom; grow
macro_rules | `(tactic| grow1) => `(tactic| exact grows_skipBom)
theorem grows_scanToNext (flow : Bool) (f n : Nat) : ∀ a, Grows start (scanToNext flow f n a) := by
  induction n with
  | zero => exact fun _ => grows_fuel
  | succ n ih => intro a; unfold scanToNext; grow
theorem grows_scanDirectiveName (f : Nat) : Grows start (scanDirectiveName f start) := by unfold scanDirectiveName; grow
macro_rules | `(tactic| grow1) => `(tactic| exact grows_scanDirectiveName _)
theorem grows_scanVersionNumber (n : Nat) : ∀ v l, Grows start (scanVersionNumber start n v l) := by
  induction n with
  | zero => exact fun _ _ => grows_fuel
  | succ n ih => intro v l; unfold scanVersionNumber; grow
macro_rules | `(tactic| grow1) => `(tactic| exact grows_scanVersionNumber _ _ _)
theorem grows_scanVersionValue (f : Nat) : Grows start (scanVersionValue f start) := by unfold scanVersionValue; grow
macro_rules | `(tactic| grow1) => `(tactic| exact grows_scanVersionValue _)
theorem grows_scanTagHandle (f : Nat) (d : Bool) : Grows start (scanTagHandle f d start) := by unfold scanTagHandle; grow
macro_rules | `(tactic| grow1) => `(tactic| exact grows_scanTagHandle _ _)
theorem grows_scanOctet (d : Bool) : Grows start (scanOctet d start) := by unfold scanOctet; grow
macro_rules | `(tactic| grow1) => `(tactic| exact grows_scanOctet _)
theorem grows_scanTrailing (d : Bool) (w : Nat) : ∀ os, Grows start (scanTrailing d start w os) := by
  induction w with
  | zero => exact fun _ => grows_pure _
  | succ n ih => intro os; unfold scanTrailing; grow
macro_rules | `(tactic| grow1) => `(tactic| exact grows_scanTrailing _ _ _)
theorem grows_scanUriEscapes (d : Bool) : Grows start (scanUriEscapes d start) := by unfold scanUriEscapes; grow
macro_rules | `(tactic| grow1) => `(tactic| exact grows_scanUriEscapes _)
theorem grows_scanUriLoop (u d : Bool) (n : Nat) : ∀ s, Grows start (scanUriLoop u d start n s) := by
  induction n with
  | zero => exact fun _ => grows_fuel
  | succ n ih => intro s; unfold scanUriLoop; grow
macro_rules | `(tactic| grow1) => `(tactic| exact grows_scanUriLoop _ _ _ _)
theorem grows_scanTagUri (f : Nat) (u d : Bool) (h : Text) : Grows start (scanTagUri f u d h start) := by unfold scanTagUri; grow
macro_rules | `(tactic| grow1) => `(tactic| exact grows_scanTagUri _ _ _ _)
theorem grows_scanTagDirValue (f : Nat) : Grows start (scanTagDirValue f start) := by unfold scanTagDirValue; grow
macro_rules | `(tactic| grow1) => `(tactic| exact grows_scanTagDirValue _)
theorem grows_finishLine (f : Nat) (c : String) : Grows start (finishLine f c start) := by unfold finishLine; grow
macro_rules | `(tactic| grow1) => `(tactic| exact grows_finishLine _ _)
theorem grows_scanTagBody (f : Nat) : Grows start (scanTagBody f start) := by unfold scanTagBody; grow
macro_rules | `(tactic| grow1) => `(tactic| exact grows_scanTagBody _)
theorem grows_skipIndent (i : Int) (n : Nat) : Grows start (skipIndent i n) := by
  induction n with
  | zero => exact grows_fuel
  | succ n ih => unfold skipIndent; grow
macro_rules | `(tactic| grow1) => `(tactic| exact grows_skipIndent _ _)
theorem grows_blockBreaksLoop (f : Nat) (i : Int) (n : Nat) : ∀ a b c, Grows start (blockBreaksLoop f start i n a b c) := by
  induction n with
  | zero => exact fun _ _ _ => grows_fuel
  | succ n ih => intro a b c; unfold blockBreaksLoop; grow
macro_rules | `(tactic| grow1) => `(tactic| exact grows_blockBreaksLoop _ _ _ _ _ _)
theorem grows_blockBreaks (f : Nat) (p i : Int) (b : Text) : Grows start (blockBreaks f start p i b) := by unfold blockBreaks; grow
macro_rules | `(tactic| grow1) => `(tactic| exact grows_blockBreaks _ _ _ _)
theorem grows_scanIncrement : Grows start (scanIncrement start) := by unfold scanIncrement; grow
macro_rules | `(tactic| grow1) => `(tactic| exact grows_scanIncrement)
theorem grows_scanBlockHeader : Grows start (scanBlockHeader start) := by unfold scanBlockHeader; grow
macro_rules | `(tactic| grow1) => `(tactic| exact grows_scanBlockHeader)
theorem grows_blockLines (f : Nat) (p : Int) (l : Bool) (n : Nat) :
    ∀ i a b c d g, Grows start (blockLines f start p l i n a b c d g) := by
  induction n with
  | zero => exact fun _ _ _ _ _ _ => grows_fuel
  | succ n ih => intro i a b c d g; unfold blockLines; grow
macro_rules | `(tactic| grow1) => `(tactic| exact grows_blockLines _ _ _ _ _ _ _ _ _ _)
theorem grows_hexValue (n : Nat) : ∀ k v, Grows start (hexValue start n k v) := by
  induction n with
  | zero => exact fun _ _ => grows_pure _
  | succ n ih => intro k v; unfold hexValue; grow
macro_rules | `(tactic| grow1) => `(tactic| exact grows_hexValue _ _ _)
theorem grows_skipN (n : Nat) : Grows start (skipN n) := by
  induction n with
  | zero => exact grows_pure _
  | succ n ih => unfold skipN; grow
macro_rules | `(tactic| grow1) => `(tactic| exact grows_skipN _)
theorem grows_scanEscape (s : Text) : Grows start (scanEscape start s) := by unfold scanEscape; grow
macro_rules | `(tactic| grow1) => `(tactic| exact grows_scanEscape _)
theorem grows_flowChars (b : Bool) (n : Nat) : ∀ s, Grows start (flowChars start b n s) := by
  induction n with
  | zero => exact fun _ => grows_fuel
  | succ n ih => intro s; unfold flowChars; grow
macro_rules | `(tactic| grow1) => `(tactic| exact grows_flowChars _ _ _)
theorem grows_flowBlanks (n : Nat) : ∀ g, Grows start (flowBlanks n g) := by
  induction n with
  | zero => exact fun _ => grows_fuel
  | succ n ih => intro g; unfold flowBlanks; grow
macro_rules | `(tactic| grow1) => `(tactic| exact grows_flowBlanks _ _)
theorem grows_flowBody (f : Nat) (b : Bool) (n : Nat) : ∀ s, Grows start (flowBody f start b n s) := by
  induction n with
  | zero => exact fun _ => grows_fuel
  | succ n ih => intro s; unfold flowBody; grow
macro_rules | `(tactic| grow1) => `(tactic| exact grows_flowBody _ _ _ _)
theorem grows_plainChars (b : Bool) (n : Nat) : ∀ s g x, Grows start (plainChars start b n s g x) := by
  induction n with
  | zero => exact fun _ _ _ => grows_fuel
  | succ n ih => intro s g x; unfold plainChars; grow
macro_rules | `(tactic| grow1) => `(tactic| exact grows_plainChars _ _ _ _ _)
theorem grows_plainBlanks (i : Int) (n : Nat) : ∀ g, Grows start (plainBlanks start i n g) := by
  induction n with
  | zero => exact fun _ => grows_fuel
  | succ n ih => intro g; unfold plainBlanks; grow
macro_rules | `(tactic| grow1) => `(tactic| exact grows_plainBlanks _ _ _)
theorem grows_plainBody (f : Nat) (b : Bool) (i : Int) (n : Nat) : ∀ s g x, Grows start (plainBody f start b i n s g x) := by
  induction n with
  | zero => exact fun _ _ _ => grows_fuel
  | succ n ih => intro s g x; unfold plainBody; grow
macro_rules | `(tactic| grow1) => `(tactic| exact grows_plainBody _ _ _ _ _ _ _)
theorem grows_dispatchChar (b : Bool) (c : Nat) : Grows start (dispatchChar b c) := by
  unfold dispatchChar
  repeat' (refine grows_ite ?_ ?_)
  all_goals grow
macro_rules | `(tactic| grow1) => `(tactic| exact grows_dispatchChar _ _)
theorem grows_dispatch (b : Bool) : Grows start (dispatch b) := by unfold dispatch; grow

attribute [local semireducible] Grows

/-- A lexical function: errors name the mark where it was called. -/
def Begins (p : Lex α) : Prop := ∀ m : Mark, (p m).Sat (fun r => m.index ≤ r.2.index) (EO m)

theorem Grows.begins {p : Lex α} (h : ∀ m, Grows m p) : Begins p := fun m => h m m (Nat.le_refl _)

theorem begins_get {g : Mark → Lex α} (h : ∀ m, Grows m (g m)) : Begins (get >>= g) := fun m => h m m (Nat.le_refl _)

theorem begins_scanDirective (f : Nat) : Begins (scanDirective f) := by
  unfold scanDirective; refine begins_get fun m => ?_; grow
theorem begins_scanAnchor (f : Nat) (a : Bool) : Begins (scanAnchor f a) := by
  unfold scanAnchor; refine begins_get fun m => ?_; grow
theorem begins_scanTag (f : Nat) (b : Bool) : Begins (scanTag f b) := by
  unfold scanTag; refine begins_get fun m => ?_; grow
theorem begins_scanBlockScalar (f : Nat) (p : Int) (b : Bool) : Begins (scanBlockScalar f p b) := by
  unfold scanBlockScalar; refine begins_get fun m => ?_; grow
theorem begins_scanFlowScalar (f : Nat) (b : Bool) : Begins (scanFlowScalar f b) := by
  unfold scanFlowScalar; refine begins_get fun m => ?_; grow
theorem begins_scanPlainScalar (f : Nat) (p : Int) (b : Bool) : Begins (scanPlainScalar f p b) := by
  unfold scanPlainScalar; refine begins_get fun m => ?_; grow

/-! ### The scanner -/

/-- The mark is at least `b`; pending keys do not lie after it, and their marks satisfy `P`. -/
def Marked (P : Mark → Prop) (b : Nat) (s : Scanner) : Prop :=
  b ≤ s.mark.index ∧ ∀ k ∈ s.keys, k.possible = true → k.mark.index ≤ s.mark.index ∧ P k.mark

/-- The context does not lie after the problem and satisfies `P`. -/
def EP (P : Mark → Prop) (er : Fail) : Prop := ∀ c cm p pm, er = .scanner c cm p pm → cm.index ≤ pm.index ∧ P cm

/-- Both are kept. -/
def HoldsMarks (P : Mark → Prop) (b : Nat) (p : SM α) : Prop := ∀ s, Marked P b s → (p s).Sat (fun r => Marked P b r.2) (EP P)

/-- An action keeps both. -/
def OkAct (P : Mark → Prop) (b : Nat) (g : Scanner → Except Fail Scanner) : Prop :=
  ∀ s, Marked P b s → (∀ s', g s = .ok s' → Marked P b s') ∧ ∀ er, g s = .error er → EP P er

variable {P : Mark → Prop} {b : Nat}

theorem EP.other {er : Fail} (h : ∀ c cm p pm, er ≠ .scanner c cm p pm) : EP P er := fun c cm p pm he => absurd he (h c cm p pm)

theorem ep_ub : EP P .ub := .other fun _ _ _ _ h => by cases h
theorem ep_memory : EP P .memory := .other fun _ _ _ _ h => by cases h

theorem holds_bind {p : SM α} {g : α → SM β} (h : HoldsMarks P b p) (hg : ∀ a, HoldsMarks P b (g a)) : HoldsMarks P b (p >>= g) :=
  fun s hs => (h s hs).bind fun r hr => hg r.1 r.2 hr

theorem holds_pure (a : α) : HoldsMarks P b (pure a : SM α) := fun _ h => h
theorem holds_get : HoldsMarks P b (get : SM Scanner) := fun _ h => h

theorem holds_ite {c : Prop} [Decidable c] {p q : SM α} (hp : HoldsMarks P b p) (hq : HoldsMarks P b q) : HoldsMarks P b (if c then p else q) := by
  split <;> assumption

theorem holds_lex (hP : ∀ m : Mark, b ≤ m.index → P m) {p : Lex α} (h : Begins p) : HoldsMarks P b (lex p) := by
  intro s hs
  refine ((h s.mark).mono (Q' := fun r => s.mark.index ≤ r.2.index) (E' := EP P) (fun _ => id) ?_).bind ?_
  · intro er he c cm pr pm hh
    obtain ⟨rfl, h2⟩ := he c cm pr pm hh
    exact ⟨h2, hP _ hs.1⟩
  · intro r hr
    exact ⟨Nat.le_trans hs.1 hr, fun k hk hp => ⟨Nat.le_trans (hs.2 k hk hp).1 hr, (hs.2 k hk hp).2⟩⟩

theorem holds_act {g : Scanner → Except Fail Scanner} (h : OkAct P b g) : HoldsMarks P b (act g) := by
  intro s hs
  unfold act
  obtain ⟨h1, h2⟩ := h s hs
  cases hg : g s with
  | ok s' => exact h1 s' hg
  | error er => exact h2 er hg

theorem okAct_enqueue (t : Token) : OkAct P b (Scanner.enqueue t) :=
  fun s hs => ⟨fun s' h => by cases h; exact hs, fun er h => by cases h⟩

theorem okAct_allow (a : Bool) : OkAct P b (Scanner.allow a) :=
  fun s hs => ⟨fun s' h => by cases h; exact hs, fun er h => by cases h⟩

theorem okAct_insert (n : Nat) (t : Token) : OkAct P b (Scanner.insert n t) := by
  intro s hs
  unfold Scanner.insert
  split
  · exact ⟨fun s' h => (by cases h), fun er h => by cases h; exact ep_ub⟩
  · exact ⟨fun s' h => by cases h; exact hs, fun er h => by cases h⟩

theorem staleKeys_ordered {m : Mark} : ∀ {ks : List SimpleKey}, (∀ k ∈ ks, k.possible = true → k.mark.index ≤ m.index ∧ P k.mark) →
    (∀ ks', staleKeys m ks = .ok ks' → (∀ k ∈ ks', k.possible = true → k.mark.index ≤ m.index ∧ P k.mark) ∧
      ∀ k ∈ ks', k.stale m = false) ∧
    ∀ er, staleKeys m ks = .error er → EP P er
  | [], _ => ⟨fun ks' h => by cases h; simp, fun er h => by cases h⟩
  | k :: ks, hk => by
    obtain ⟨h1, h2⟩ := staleKeys_ordered (ks := ks) (fun k' hk' => hk k' (List.mem_cons_of_mem _ hk'))
    unfold staleKeys
    cases hs : staleKeys m ks with
    | error e => exact ⟨fun _ h => (by cases h), fun er h => by cases h; exact h2 _ hs⟩
    | ok ks1 =>
      obtain ⟨h3, h4⟩ := h1 ks1 hs
      by_cases hst : k.stale m = true
      · by_cases hr : k.required = true
        · simp only [hst, hr, if_true]
          refine ⟨fun _ h => (by cases h), fun er h => ?_⟩
          cases h
          intro c cm p pm he
          cases he
          refine hk k (by simp) ?_
          unfold SimpleKey.stale at hst
          simp at hst
          exact hst.1
        · simp only [hst, hr, if_true]
          refine ⟨fun ks' h => ?_, fun er h => by cases h⟩
          cases h
          refine ⟨fun k' hk' hp => ?_, fun k' hk' => ?_⟩
          · rcases List.mem_cons.mp hk' with rfl | hk'
            · cases hp
            · exact h3 k' hk' hp
          · rcases List.mem_cons.mp hk' with rfl | hk'
            · rfl
            · exact h4 k' hk'
      · simp only [hst]
        refine ⟨fun ks' h => ?_, fun er h => by cases h⟩
        cases h
        refine ⟨fun k' hk' hp => ?_, fun k' hk' => ?_⟩
        · rcases List.mem_cons.mp hk' with rfl | hk'
          · exact hk k' (by simp) hp
          · exact h3 k' hk' hp
        · rcases List.mem_cons.mp hk' with rfl | hk'
          · simpa using hst
          · exact h4 k' hk'

theorem okAct_stale : OkAct P b Scanner.stale := by
  intro s hs
  obtain ⟨h1, h2⟩ := staleKeys_ordered hs.2
  unfold Scanner.stale
  cases hk : staleKeys s.mark s.keys with
  | error e => exact ⟨fun _ h => (by cases h), fun er h => by cases h; exact h2 _ hk⟩
  | ok ks => exact ⟨fun s' h => by cases h; exact ⟨hs.1, (h1 ks hk).1⟩, fun er h => by cases h⟩

theorem okAct_removeKey : OkAct P b Scanner.removeKey := by
  intro s hs
  unfold Scanner.removeKey
  cases hk : s.keys with
  | nil => exact ⟨fun s' h => (by cases h), fun er h => by cases h; exact ep_ub⟩
  | cons k ks =>
    have hs2 := hs.2
    rw [hk] at hs2
    by_cases hc : (k.possible && k.required) = true
    · simp only [hc, if_true]
      refine ⟨fun s' h => (by cases h), fun er h => ?_⟩
      cases h
      intro c cm p pm he
      cases he
      simp at hc
      exact hs2 k (by simp) hc.1
    · simp only [hc]
      refine ⟨fun s' h => ?_, fun er h => by cases h⟩
      cases h
      refine ⟨hs.1, fun k' hk' hp => ?_⟩
      rcases List.mem_cons.mp hk' with rfl | hk'
      · cases hp
      · exact hs2 k' (by simp [hk']) hp

theorem okAct_saveKey (hP : ∀ m : Mark, b ≤ m.index → P m) : OkAct P b Scanner.saveKey := by
  intro s hs
  unfold Scanner.saveKey
  split
  · obtain ⟨h1, h2⟩ := okAct_removeKey s hs
    cases hr : s.removeKey with
    | error e => exact ⟨fun s' h => (by cases h), fun er h => by cases h; exact h2 _ hr⟩
    | ok s1 =>
      have hs1 := h1 s1 hr
      simp only
      cases hk : s1.keys with
      | nil => exact ⟨fun s' h => (by cases h), fun er h => by cases h; exact ep_ub⟩
      | cons k ks =>
        refine ⟨fun s' h => ?_, fun er h => by cases h⟩
        cases h
        refine ⟨hs1.1, fun k' hk' hp => ?_⟩
        rcases List.mem_cons.mp hk' with rfl | hk'
        · exact ⟨Nat.le_refl _, hP _ hs1.1⟩
        · exact hs1.2 k' (by rw [hk]; simp [hk']) hp
  · exact ⟨fun s' h => by cases h; exact hs, fun er h => by cases h⟩

theorem okAct_increaseFlow : OkAct P b Scanner.increaseFlow := by
  intro s hs
  unfold Scanner.increaseFlow
  split
  · exact ⟨fun s' h => (by cases h), fun er h => by cases h; exact ep_memory⟩
  · refine ⟨fun s' h => ?_, fun er h => by cases h⟩
    cases h
    refine ⟨hs.1, fun k' hk' hp => ?_⟩
    rcases List.mem_cons.mp hk' with rfl | hk'
    · cases hp
    · exact hs.2 k' hk' hp

theorem okAct_decreaseFlow : OkAct P b Scanner.decreaseFlow := by
  intro s hs
  unfold Scanner.decreaseFlow
  cases s.flowLevel with
  | zero => exact ⟨fun s' h => by cases h; exact hs, fun er h => by cases h⟩
  | succ l =>
    simp only
    cases hk : s.keys with
    | nil => exact ⟨fun s' h => (by cases h), fun er h => by cases h; exact ep_ub⟩
    | cons k ks =>
      refine ⟨fun s' h => ?_, fun er h => by cases h⟩
      cases h
      exact ⟨hs.1, fun k' hk' hp => hs.2 k' (by rw [hk]; simp [hk']) hp⟩

theorem okAct_rollIndent (c : Nat) (n : Option Nat) (d : TokData) (m : Mark) : OkAct P b (Scanner.rollIndent c n d m) := by
  intro s hs
  unfold Scanner.rollIndent
  split
  · exact ⟨fun s' h => by cases h; exact hs, fun er h => by cases h⟩
  · split
    · split
      · exact ⟨fun s' h => (by cases h), fun er h => by cases h; exact ep_memory⟩
      · cases n with
        | none => exact okAct_enqueue _ _ hs
        | some n => exact okAct_insert _ _ _ hs
    · exact ⟨fun s' h => by cases h; exact hs, fun er h => by cases h⟩

theorem unrollLoop_err {c : Int} {m : Mark} : ∀ {is : List Int} {i : Int} {q : List Token} {er : Fail},
    unrollLoop c m i is q = .error er → er = .ub
  | [], i, q, er, h => by
    unfold unrollLoop at h
    split at h <;> cases h
    rfl
  | j :: is, i, q, er, h => by
    unfold unrollLoop at h
    split at h
    · exact unrollLoop_err h
    · cases h

theorem okAct_unrollIndent (c : Int) : OkAct P b (Scanner.unrollIndent c) := by
  intro s hs
  unfold Scanner.unrollIndent
  split
  · exact ⟨fun s' h => by cases h; exact hs, fun er h => by cases h⟩
  · cases hu : unrollLoop c s.mark s.indent s.indents s.tokens with
    | error e => exact ⟨fun s' h => (by cases h), fun er h => by cases h; rw [unrollLoop_err hu]; exact ep_ub⟩
    | ok v => exact ⟨fun s' h => by cases h; exact hs, fun er h => by cases h⟩

theorem okAct_startBlock (hP : ∀ m : Mark, b ≤ m.index → P m) (d : TokData) (p : String) : OkAct P b (startBlock d p) := by
  intro s hs
  unfold startBlock
  split
  · split
    · exact okAct_rollIndent _ _ _ _ _ hs
    · refine ⟨fun s' h => (by cases h), fun er h => ?_⟩
      cases h
      intro c cm pr pm he
      cases he
      exact ⟨Nat.le_refl _, hP _ hs.1⟩
  · exact ⟨fun s' h => by cases h; exact hs, fun er h => by cases h⟩

theorem okAct_insertKey (k : SimpleKey) : OkAct P b (Scanner.insertKey k) := by
  intro s hs
  unfold Scanner.insertKey
  obtain ⟨h1, h2⟩ := okAct_insert k.tokenNumber { data := .key, start := k.mark, stop := k.mark } s hs
  cases hi : s.insert k.tokenNumber { data := .key, start := k.mark, stop := k.mark } with
  | error e => exact ⟨fun s' h => (by cases h), fun er h => by cases h; exact h2 _ hi⟩
  | ok s1 =>
    simp only
    obtain ⟨h3, h4⟩ := okAct_rollIndent k.mark.column (some k.tokenNumber) .blockMappingStart k.mark s1 (h1 s1 hi)
    cases hr : s1.rollIndent k.mark.column (some k.tokenNumber) .blockMappingStart k.mark with
    | error e => exact ⟨fun s' h => (by cases h), fun er h => by cases h; exact h4 _ hr⟩
    | ok s2 =>
      have hs2 := h3 s2 hr
      refine ⟨fun s' h => ?_, fun er h => by cases h⟩
      cases h
      refine ⟨hs2.1, fun k' hk' hp => ?_⟩
      rcases List.mem_cons.mp hk' with rfl | hk'
      · cases hp
      · exact hs2.2 k' (List.mem_of_mem_tail hk') hp

theorem okAct_valueKey (hP : ∀ m : Mark, b ≤ m.index → P m) : OkAct P b valueKey := by
  intro s hs
  unfold valueKey
  cases hk : s.keys with
  | nil => exact ⟨fun s' h => (by cases h), fun er h => by cases h; exact ep_ub⟩
  | cons k ks =>
    simp only
    split
    · exact okAct_insertKey k s hs
    · obtain ⟨h1, h2⟩ := okAct_startBlock hP .blockMappingStart "mapping values are not allowed in this context" s hs
      cases hr : startBlock .blockMappingStart "mapping values are not allowed in this context" s with
      | error e => exact ⟨fun s' h => (by cases h), fun er h => by cases h; exact h2 _ hr⟩
      | ok s1 => exact okAct_allow _ _ (h1 s1 hr)

theorem holds_resetAll : HoldsMarks P b resetAll :=
  holds_bind (holds_act (okAct_unrollIndent _)) fun _ => holds_bind (holds_act okAct_removeKey) fun _ =>
    holds_act (okAct_allow _)

theorem holds_fetchIndicator (hP : ∀ m : Mark, b ≤ m.index → P m) (n : Nat) (d : TokData) : HoldsMarks P b (fetchIndicator n d) :=
  holds_bind holds_get fun _ => holds_bind (holds_lex hP (Grows.begins fun _ => grows_skipN n)) fun _ =>
    holds_bind holds_get fun _ => holds_act (okAct_enqueue _)

theorem holds_fetchKind (hP : ∀ m : Mark, b ≤ m.index → P m) (f : Nat) (k : Kind) : HoldsMarks P b (fetchKind f k) := by
  cases k with
  | streamEnd =>
    refine holds_bind (holds_act fun s hs => ⟨fun s' h => ?_, fun er h => by cases h⟩) fun _ =>
      holds_bind holds_resetAll fun _ => holds_act fun s hs => okAct_enqueue _ s hs
    cases h
    have : (forceLine s.mark).index = s.mark.index := by unfold forceLine; split <;> rfl
    unfold Marked
    simp only [this]
    exact hs
  | directive => exact holds_bind holds_resetAll fun _ => holds_bind (holds_lex hP (begins_scanDirective f)) fun _ => holds_act (okAct_enqueue _)
  | documentStart => exact holds_bind holds_resetAll fun _ => holds_fetchIndicator hP _ _
  | documentEnd => exact holds_bind holds_resetAll fun _ => holds_fetchIndicator hP _ _
  | flowStart d =>
    exact holds_bind (holds_act (okAct_saveKey hP)) fun _ => holds_bind (holds_act okAct_increaseFlow) fun _ =>
      holds_bind (holds_act (okAct_allow _)) fun _ => holds_fetchIndicator hP _ _
  | flowEnd d =>
    exact holds_bind (holds_act okAct_removeKey) fun _ => holds_bind (holds_act okAct_decreaseFlow) fun _ =>
      holds_bind (holds_act (okAct_allow _)) fun _ => holds_fetchIndicator hP _ _
  | flowEntry =>
    exact holds_bind (holds_act okAct_removeKey) fun _ => holds_bind (holds_act (okAct_allow _)) fun _ => holds_fetchIndicator hP _ _
  | blockEntry =>
    exact holds_bind (holds_act (okAct_startBlock hP _ _)) fun _ => holds_bind (holds_act okAct_removeKey) fun _ =>
      holds_bind (holds_act (okAct_allow _)) fun _ => holds_fetchIndicator hP _ _
  | key =>
    exact holds_bind (holds_act (okAct_startBlock hP _ _)) fun _ => holds_bind (holds_act okAct_removeKey) fun _ =>
      holds_bind (holds_act fun s hs => okAct_allow _ s hs) fun _ => holds_fetchIndicator hP _ _
  | value => exact holds_bind (holds_act (okAct_valueKey hP)) fun _ => holds_fetchIndicator hP _ _
  | anchor a =>
    exact holds_bind (holds_act (okAct_saveKey hP)) fun _ => holds_bind (holds_act (okAct_allow _)) fun _ =>
      holds_bind (holds_lex hP (begins_scanAnchor f a)) fun _ => holds_act (okAct_enqueue _)
  | tag =>
    exact holds_bind (holds_act (okAct_saveKey hP)) fun _ => holds_bind (holds_act (okAct_allow _)) fun _ =>
      holds_bind holds_get fun s => holds_bind (holds_lex hP (begins_scanTag f _)) fun _ => holds_act (okAct_enqueue _)
  | block l =>
    exact holds_bind (holds_act okAct_removeKey) fun _ => holds_bind (holds_act (okAct_allow _)) fun _ =>
      holds_bind holds_get fun s => holds_bind (holds_lex hP (begins_scanBlockScalar f _ l)) fun _ => holds_act (okAct_enqueue _)
  | quoted q =>
    exact holds_bind (holds_act (okAct_saveKey hP)) fun _ => holds_bind (holds_act (okAct_allow _)) fun _ =>
      holds_bind (holds_lex hP (begins_scanFlowScalar f q)) fun _ => holds_act (okAct_enqueue _)
  | plain =>
    exact holds_bind (holds_act (okAct_saveKey hP)) fun _ => holds_bind (holds_act (okAct_allow _)) fun _ =>
      holds_bind holds_get fun s => holds_bind (holds_lex hP (begins_scanPlainScalar f _ _)) fun _ =>
        holds_bind (holds_act fun s hs => okAct_allow _ s hs) fun _ => holds_act (okAct_enqueue _)
  | unknown =>
    intro s hs c cm p pm he
    cases he
    exact ⟨Nat.le_refl _, hP _ hs.1⟩

theorem holds_fetchNext (hP : ∀ m : Mark, b ≤ m.index → P m) (f : Nat) : HoldsMarks P b (fetchNext f) := by
  refine holds_bind (holds_lex hP (Grows.begins fun _ => grows_cacheC 1)) fun _ => holds_bind holds_get fun s => holds_ite ?_ ?_
  · exact holds_bind (holds_lex hP (Grows.begins fun _ => grows_scanToNext _ f f _)) fun _ =>
      holds_bind (holds_act (okAct_allow _)) fun _ => holds_bind (holds_act okAct_stale) fun _ =>
      holds_bind (holds_act fun s hs => okAct_unrollIndent _ s hs) fun _ =>
      holds_bind (holds_lex hP (Grows.begins fun _ => grows_cacheC 4)) fun _ =>
      holds_bind (holds_lex hP (Grows.begins fun _ => grows_dispatch _)) fun k => holds_fetchKind hP f k
  · refine holds_act fun s hs => ⟨fun s' h => ?_, fun er h => by cases h⟩
    cases h
    refine ⟨hs.1, fun k' hk' hp => ?_⟩
    rcases List.mem_cons.mp hk' with rfl | hk'
    · cases hp
    · exact hs.2 k' hk' hp

/-- After `yaml_parser_fetch_more_tokens` no pending key is stale. -/
theorem sat_fetchMore (hP : ∀ m : Mark, b ≤ m.index → P m) (f : Nat) : ∀ (n : Nat) (s : Scanner), Marked P b s →
    (fetchMore f n s).Sat (fun r => Marked P b r.2 ∧ ∀ k ∈ r.2.keys, k.stale r.2.mark = false) (EP P)
  | 0, s, hs => fun _ _ _ _ h => by cases h
  | n + 1, s, hs => by
    have again : ∀ s, Marked P b s → ((fetchNext f >>= fun _ => fetchMore f n : SM Unit) s).Sat
        (fun r => Marked P b r.2 ∧ ∀ k ∈ r.2.keys, k.stale r.2.mark = false) (EP P) := fun s hs =>
      (holds_fetchNext hP f s hs).bind fun r hr => sat_fetchMore hP f n r.2 hr
    unfold fetchMore
    show ((if s.tokens.isEmpty = true then _ else _ : SM Unit) s).Sat _ _
    split
    · exact again s hs
    · show ((act Scanner.stale s).bind _).Sat _ _
      have h0 := holds_act (okAct_stale (P := P) (b := b)) s hs
      have h1 : (act Scanner.stale s).Sat (fun r => ∀ k ∈ r.2.keys, k.stale r.2.mark = false) (EP P) := by
        obtain ⟨h1, h2⟩ := staleKeys_ordered hs.2
        unfold act Scanner.stale
        cases hk : staleKeys s.mark s.keys with
        | error e => exact h2 _ hk
        | ok ks => exact (h1 ks hk).2
      have h2 : (act Scanner.stale s).Sat (fun r => Marked P b r.2 ∧ ∀ k ∈ r.2.keys, k.stale r.2.mark = false) (EP P) := by
        revert h0 h1
        generalize act Scanner.stale s = q
        induction q with
        | ret a => exact fun h0 h1 => ⟨h0, h1⟩
        | fail e => exact fun h0 _ => h0
        | cache n k ih => exact ih
        | look j k ih => exact fun h0 h1 c => ih c (h0 c) (h1 c)
        | skip k ih => exact ih
      refine h2.bind fun r hr => ?_
      show ((if r.2.headPending = true then _ else _ : SM Unit) r.2).Sat _ _
      split
      · exact again r.2 hr.1
      · exact hr

theorem sat_nextToken (hP : ∀ m : Mark, b ≤ m.index → P m) (f : Nat) {s : Scanner} (hs : Marked P b s) :
    (nextToken f s).Sat (fun r => ∀ k ∈ r.2.keys, k.stale r.2.mark = false) (EP P) := by
  refine (sat_fetchMore hP f f s hs).bind fun r hr => ?_
  cases ht : r.2.tokens with
  | nil => simp only [ht]; exact ep_ub
  | cons t ts => simp only [ht]; exact hr.2

/-- With tokens in the queue and no key pending nothing has to be fetched. -/
theorem nextToken_quiet (f : Nat) {s : Scanner} (ht : s.tokens ≠ []) (hk : ∀ k ∈ s.keys, k.possible = false) :
    (nextToken f s).Sat (fun r => ∀ k ∈ r.2.keys, k.stale r.2.mark = false) (EP P) := by
  have hst : ∀ m, ∀ ks : List SimpleKey, (∀ k ∈ ks, k.possible = false) → staleKeys m ks = .ok ks := by
    intro m ks
    induction ks with
    | nil => exact fun _ => rfl
    | cons k ks ih =>
      intro h
      unfold staleKeys
      rw [ih fun k' hk' => h k' (by simp [hk'])]
      simp [SimpleKey.stale, h k (by simp)]
  have hact : act Scanner.stale s = .ret ((), s) := by
    unfold act Scanner.stale
    rw [hst _ _ hk]
  cases f with
  | zero => exact fun _ _ _ _ h => by cases h
  | succ n =>
    have hm : fetchMore (n + 1) (n + 1) s = .ret ((), s) := by
      unfold fetchMore
      show (if s.tokens.isEmpty = true then _ else _ : SM Unit) s = _
      rw [if_neg (by simpa using ht)]
      show (act Scanner.stale s).bind _ = _
      rw [hact]
      show (if s.headPending = true then _ else _ : SM Unit) s = _
      rw [if_neg]
      · rfl
      · unfold Scanner.headPending
        simp only [List.any_eq_true, not_exists, not_and]
        intro k hkm
        simp [hk k hkm]
    show ((fetchMore (n + 1) (n + 1) s).bind _).Sat _ _
    rw [hm]
    show (match s.tokens with
      | [] => Prog.fail .ub
      | t :: ts => .ret (t, { s with tokens := ts, tokensParsed := s.tokensParsed + 1 })).Sat _ _
    cases hts : s.tokens with
    | nil => exact absurd hts ht
    | cons t ts =>
      intro k hkm
      simp [SimpleKey.stale, hk k hkm]

end LibYaml
