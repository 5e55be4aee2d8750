import Verif.Proofs.ErrorOrder

/-!
# How far the scanner looks ahead

All branches of the programs of the scanner request at most 8 characters (`CACHE(parser, code_length)` with `\U`), whatever is read.
-/

namespace LibYaml

open Spec

/-- No request is for more than `n` characters. -/
def Prog.Asks {α : Type} (n : Nat) : Prog α → Prop
  | .ret _ => True
  | .fail _ => True
  | .cache k p => k ≤ n ∧ p.Asks n
  | .look _ p => ∀ c, (p c).Asks n
  | .skip p => p.Asks n

theorem Prog.Asks.bind {α β : Type} {n : Nat} {g : α → Prog β} {p : Prog α} (h : p.Asks n) (hg : ∀ a, (g a).Asks n) : (p.bind g).Asks n := by
  induction p with
  | ret a => exact hg a
  | fail e => trivial
  | cache n k ih => exact ⟨h.1, ih h.2⟩
  | look j k ih => exact fun c => ih c (h c)
  | skip k ih => exact ih h

/-- A lexical function requests at most 8 characters. -/
def LexAsks {α : Type} (p : Lex α) : Prop := ∀ m : Mark, (p m).Asks 8

variable {α β : Type} {start : Mark}

theorem asks_bind {p : Lex α} {g : α → Lex β} (h : LexAsks p) (hg : ∀ a, LexAsks (g a)) : LexAsks (p >>= g) :=
  fun m => (h m).bind fun r => hg r.1 r.2
theorem asks_pure (a : α) : LexAsks (pure a : Lex α) := fun _ => trivial
theorem asks_ite {c : Prop} [Decidable c] {p q : Lex α} (hp : LexAsks p) (hq : LexAsks q) : LexAsks (if c then p else q) := by
  split <;> assumption
theorem asks_get : LexAsks (get : Lex Mark) := fun _ => trivial
theorem asks_fuel : LexAsks (fun _ => .fail .fuel : Lex α) := fun _ => trivial
theorem asks_cacheC {n : Nat} (h : n ≤ 8) : LexAsks (cacheC n) := fun _ => ⟨h, trivial⟩
theorem asks_peekC (n : Nat) : LexAsks (peekC n) := fun _ _ => trivial
theorem asks_skipC : LexAsks skipC := fun _ => trivial
theorem asks_passBreak : ∀ n, LexAsks (passBreak n)
  | 0 => fun _ => trivial
  | n + 1 => fun m => asks_passBreak n { m with index := m.index + 1 }
theorem asks_lexErr (c : Option String) (x : Mark) (p : String) : LexAsks (lexErr c x p : Lex α) := fun _ => trivial

/-- One step of a proof about the requests of a lexical function. -/
syntax "ask1" : tactic
set_option hygiene false in
macro_rules | `(tactic| ask1) => `(tactic| first
  | exact asks_pure _ | exact asks_get | exact asks_fuel | exact asks_cacheC (by decide) | exact asks_peekC _
  | exact asks_skipC | exact asks_passBreak _ | exact asks_lexErr _ _ _ | apply ih
  | refine asks_bind ?_ (fun _ => ?_) | split)

/-- All the steps. -/
macro "ask" : tactic => `(tactic| repeat' (first
  | with_reducible refine asks_ite ?_ ?_ | with_reducible refine asks_bind ?_ (fun _ => ?_) | ask1))

attribute [local irreducible] LexAsks

theorem asks_skipLine : LexAsks skipLine := by unfold skipLine; ask
macro_rules | `(tactic| ask1) => `(tactic| exact asks_skipLine)
theorem asks_readC (s : Text) : LexAsks (readC s) := by unfold readC; ask
macro_rules | `(tactic| ask1) => `(tactic| exact asks_readC _)
theorem asks_readLine (s : Text) : LexAsks (readLine s) := by unfold readLine; ask
macro_rules | `(tactic| ask1) => `(tactic| exact asks_readLine _)
theorem asks_skipWhile (p : Nat → Bool) (n : Nat) : LexAsks (skipWhile p n) := by
  induction n with
  | zero => exact asks_fuel
  | succ n ih => unfold skipWhile; ask
macro_rules | `(tactic| ask1) => `(tactic| exact asks_skipWhile _ _)
theorem asks_readWhile (p : Nat → Bool) (n : Nat) : ∀ s, LexAsks (readWhile p n s) := by
  induction n with
  | zero => exact fun _ => asks_fuel
  | succ n ih => intro s; unfold readWhile; ask
macro_rules | `(tactic| ask1) => `(tactic| exact asks_readWhile _ _ _)
theorem asks_checkSeq (l : List Nat) : ∀ j, LexAsks (checkSeq j l) := by
  induction l with
  | nil => exact fun _ => asks_pure _
  | cons a l ih => intro j; unfold checkSeq; ask
macro_rules | `(tactic| ask1) => `(tactic| exact asks_checkSeq _ _)
theorem asks_skipComment (n : Nat) : LexAsks (skipComment n) := by unfold skipComment; ask
macro_rules | `(tactic| ask1) => `(tactic| exact asks_skipComment _)
theorem asks_docMark (c : Nat) : LexAsks (docMark c) := by unfold docMark; ask
macro_rules | `(tactic| ask1) => `(tactic| exact asks_docMark _)
theorem asks_docIndicator : LexAsks docIndicator := by unfold docIndicator; ask
macro_rules | `(tactic| ask1) => `(tactic| exact asks_docIndicator)
theorem asks_skipBom : LexAsks skipBom := by unfold skipBom; ask
macro_rules | `(tactic| ask1) => `(tactic| exact asks_skipBom)
theorem asks_scanToNext (flow : Bool) (f n : Nat) : ∀ a, LexAsks (scanToNext flow f n a) := by
  induction n with
  | zero => exact fun _ => asks_fuel
  | succ n ih => intro a; unfold scanToNext; ask
theorem asks_scanDirectiveName (f : Nat) : LexAsks (scanDirectiveName f start) := by unfold scanDirectiveName; ask
macro_rules | `(tactic| ask1) => `(tactic| exact asks_scanDirectiveName _)
theorem asks_scanVersionNumber (n : Nat) : ∀ v l, LexAsks (scanVersionNumber start n v l) := by
  induction n with
  | zero => exact fun _ _ => asks_fuel
  | succ n ih => intro v l; unfold scanVersionNumber; ask
macro_rules | `(tactic| ask1) => `(tactic| exact asks_scanVersionNumber _ _ _)
theorem asks_scanVersionValue (f : Nat) : LexAsks (scanVersionValue f start) := by unfold scanVersionValue; ask
macro_rules | `(tactic| ask1) => `(tactic| exact asks_scanVersionValue _)
theorem asks_scanTagHandle (f : Nat) (d : Bool) : LexAsks (scanTagHandle f d start) := by unfold scanTagHandle; ask
macro_rules | `(tactic| ask1) => `(tactic| exact asks_scanTagHandle _ _)
theorem asks_scanOctet (d : Bool) : LexAsks (scanOctet d start) := by unfold scanOctet; ask
macro_rules | `(tactic| ask1) => `(tactic| exact asks_scanOctet _)
theorem asks_scanTrailing (d : Bool) (w : Nat) : ∀ os, LexAsks (scanTrailing d start w os) := by
  induction w with
  | zero => exact fun _ => asks_pure _
  | succ n ih => intro os; unfold scanTrailing; ask
macro_rules | `(tactic| ask1) => `(tactic| exact asks_scanTrailing _ _ _)
theorem asks_scanUriEscapes (d : Bool) : LexAsks (scanUriEscapes d start) := by unfold scanUriEscapes; ask
macro_rules | `(tactic| ask1) => `(tactic| exact asks_scanUriEscapes _)
theorem asks_scanUriLoop (u d : Bool) (n : Nat) : ∀ s, LexAsks (scanUriLoop u d start n s) := by
  induction n with
  | zero => exact fun _ => asks_fuel
  | succ n ih => intro s; unfold scanUriLoop; ask
macro_rules | `(tactic| ask1) => `(tactic| exact asks_scanUriLoop _ _ _ _)
theorem asks_scanTagUri (f : Nat) (u d : Bool) (h : Text) : LexAsks (scanTagUri f u d h start) := by unfold scanTagUri; ask
macro_rules | `(tactic| ask1) => `(tactic| exact asks_scanTagUri _ _ _ _)
theorem asks_scanTagDirValue (f : Nat) : LexAsks (scanTagDirValue f start) := by unfold scanTagDirValue; ask
macro_rules | `(tactic| ask1) => `(tactic| exact asks_scanTagDirValue _)
theorem asks_finishLine (f : Nat) (c : String) : LexAsks (finishLine f c start) := by unfold finishLine; ask
macro_rules | `(tactic| ask1) => `(tactic| exact asks_finishLine _ _)
theorem asks_scanTagBody (f : Nat) : LexAsks (scanTagBody f start) := by unfold scanTagBody; ask
macro_rules | `(tactic| ask1) => `(tactic| exact asks_scanTagBody _)
theorem asks_skipIndent (i : Int) (n : Nat) : LexAsks (skipIndent i n) := by
  induction n with
  | zero => exact asks_fuel
  | succ n ih => unfold skipIndent; ask
macro_rules | `(tactic| ask1) => `(tactic| exact asks_skipIndent _ _)
theorem asks_blockBreaksLoop (f : Nat) (i : Int) (n : Nat) : ∀ a b c, LexAsks (blockBreaksLoop f start i n a b c) := by
  induction n with
  | zero => exact fun _ _ _ => asks_fuel
  | succ n ih => intro a b c; unfold blockBreaksLoop; ask
macro_rules | `(tactic| ask1) => `(tactic| exact asks_blockBreaksLoop _ _ _ _ _ _)
theorem asks_blockBreaks (f : Nat) (p i : Int) (b : Text) : LexAsks (blockBreaks f start p i b) := by unfold blockBreaks; ask
macro_rules | `(tactic| ask1) => `(tactic| exact asks_blockBreaks _ _ _ _)
theorem asks_scanIncrement : LexAsks (scanIncrement start) := by unfold scanIncrement; ask
macro_rules | `(tactic| ask1) => `(tactic| exact asks_scanIncrement)
theorem asks_scanBlockHeader : LexAsks (scanBlockHeader start) := by unfold scanBlockHeader; ask
macro_rules | `(tactic| ask1) => `(tactic| exact asks_scanBlockHeader)
theorem asks_blockLines (f : Nat) (p : Int) (l : Bool) (n : Nat) :
    ∀ i a b c d g, LexAsks (blockLines f start p l i n a b c d g) := by
  induction n with
  | zero => exact fun _ _ _ _ _ _ => asks_fuel
  | succ n ih => intro i a b c d g; unfold blockLines; ask
macro_rules | `(tactic| ask1) => `(tactic| exact asks_blockLines _ _ _ _ _ _ _ _ _ _)
theorem asks_hexValue (n : Nat) : ∀ k v, LexAsks (hexValue start n k v) := by
  induction n with
  | zero => exact fun _ _ => asks_pure _
  | succ n ih => intro k v; unfold hexValue; ask
macro_rules | `(tactic| ask1) => `(tactic| exact asks_hexValue _ _ _)
theorem asks_skipN (n : Nat) : LexAsks (skipN n) := by
  induction n with
  | zero => exact asks_pure _
  | succ n ih => unfold skipN; ask
macro_rules | `(tactic| ask1) => `(tactic| exact asks_skipN _)
theorem asks_scanEscape (s : Text) : LexAsks (scanEscape start s) := by
  unfold scanEscape
  refine asks_bind (asks_peekC _) fun c => ?_
  split
  · ask
  · split
    · ask
    · rename_i len hl
      have hl : len ≤ 8 := by
        unfold codeLength at hl
        repeat' split at hl
        all_goals cases hl
        all_goals decide
      exact asks_bind asks_skipC fun _ => asks_bind asks_skipC fun _ => asks_bind (asks_cacheC hl) fun _ => by ask
macro_rules | `(tactic| ask1) => `(tactic| exact asks_scanEscape _)
theorem asks_flowChars (b : Bool) (n : Nat) : ∀ s, LexAsks (flowChars start b n s) := by
  induction n with
  | zero => exact fun _ => asks_fuel
  | succ n ih => intro s; unfold flowChars; ask
macro_rules | `(tactic| ask1) => `(tactic| exact asks_flowChars _ _ _)
theorem asks_flowBlanks (n : Nat) : ∀ g, LexAsks (flowBlanks n g) := by
  induction n with
  | zero => exact fun _ => asks_fuel
  | succ n ih => intro g; unfold flowBlanks; ask
macro_rules | `(tactic| ask1) => `(tactic| exact asks_flowBlanks _ _)
theorem asks_flowBody (f : Nat) (b : Bool) (n : Nat) : ∀ s, LexAsks (flowBody f start b n s) := by
  induction n with
  | zero => exact fun _ => asks_fuel
  | succ n ih => intro s; unfold flowBody; ask
macro_rules | `(tactic| ask1) => `(tactic| exact asks_flowBody _ _ _ _)
theorem asks_plainChars (b : Bool) (n : Nat) : ∀ s g x, LexAsks (plainChars start b n s g x) := by
  induction n with
  | zero => exact fun _ _ _ => asks_fuel
  | succ n ih => intro s g x; unfold plainChars; ask
macro_rules | `(tactic| ask1) => `(tactic| exact asks_plainChars _ _ _ _ _)
theorem asks_plainBlanks (i : Int) (n : Nat) : ∀ g, LexAsks (plainBlanks start i n g) := by
  induction n with
  | zero => exact fun _ => asks_fuel
  | succ n ih => intro g; unfold plainBlanks; ask
macro_rules | `(tactic| ask1) => `(tactic| exact asks_plainBlanks _ _ _)
theorem asks_plainBody (f : Nat) (b : Bool) (i : Int) (n : Nat) : ∀ s g x, LexAsks (plainBody f start b i n s g x) := by
  induction n with
  | zero => exact fun _ _ _ => asks_fuel
  | succ n ih => intro s g x; unfold plainBody; ask
macro_rules | `(tactic| ask1) => `(tactic| exact asks_plainBody _ _ _ _ _ _ _)
theorem asks_dispatchChar (b : Bool) (c : Nat) : LexAsks (dispatchChar b c) := by
  unfold dispatchChar
  repeat' (refine asks_ite ?_ ?_)
  all_goals ask
macro_rules | `(tactic| ask1) => `(tactic| exact asks_dispatchChar _ _)
theorem asks_dispatch (b : Bool) : LexAsks (dispatch b) := by unfold dispatch; ask

attribute [local semireducible] LexAsks

theorem asks_scanDirective (f : Nat) : LexAsks (scanDirective f) := asks_bind asks_get fun start => by ask
theorem asks_scanAnchor (f : Nat) (a : Bool) : LexAsks (scanAnchor f a) := asks_bind asks_get fun start => by ask
theorem asks_scanTag (f : Nat) (b : Bool) : LexAsks (scanTag f b) := asks_bind asks_get fun start => by ask
theorem asks_scanBlockScalar (f : Nat) (p : Int) (b : Bool) : LexAsks (scanBlockScalar f p b) := asks_bind asks_get fun start => by ask
theorem asks_scanFlowScalar (f : Nat) (b : Bool) : LexAsks (scanFlowScalar f b) := asks_bind asks_get fun start => by ask
theorem asks_scanPlainScalar (f : Nat) (p : Int) (b : Bool) : LexAsks (scanPlainScalar f p b) := asks_bind asks_get fun start => by ask

/-- The same for actions of the scanner. -/
def ScanAsks (p : SM α) : Prop := ∀ s : Scanner, (p s).Asks 8

theorem scanAsks_bind {p : SM α} {g : α → SM β} (h : ScanAsks p) (hg : ∀ a, ScanAsks (g a)) : ScanAsks (p >>= g) :=
  fun m => (h m).bind fun r => hg r.1 r.2
theorem scanAsks_get : ScanAsks (get : SM Scanner) := fun _ => trivial
theorem scanAsks_pure (a : α) : ScanAsks (pure a : SM α) := fun _ => trivial
theorem scanAsks_act (g : Scanner → Except Fail Scanner) : ScanAsks (act g) := by
  intro s
  unfold act
  split <;> trivial
theorem scanAsks_lex {p : Lex α} (h : LexAsks p) : ScanAsks (lex p) := fun s => (h s.mark).bind fun _ => trivial
theorem scanAsks_ite {c : Prop} [Decidable c] {p q : SM α} (hp : ScanAsks p) (hq : ScanAsks q) : ScanAsks (if c then p else q) := by
  split <;> assumption

theorem scanAsks_resetAll : ScanAsks resetAll :=
  scanAsks_bind (scanAsks_act _) fun _ => scanAsks_bind (scanAsks_act _) fun _ => scanAsks_act _

theorem scanAsks_indicator (n : Nat) (d : TokData) : ScanAsks (fetchIndicator n d) :=
  scanAsks_bind scanAsks_get fun _ => scanAsks_bind (scanAsks_lex (asks_skipN n)) fun _ => scanAsks_bind scanAsks_get fun _ => scanAsks_act _

theorem scanAsks_fetchKind (f : Nat) (k : Kind) : ScanAsks (fetchKind f k) := by
  have two : ∀ {g h : Scanner → Except Fail Scanner} {p : SM Unit}, ScanAsks p → ScanAsks (do act g; act h; p) := fun hp =>
    scanAsks_bind (scanAsks_act _) fun _ => scanAsks_bind (scanAsks_act _) fun _ => hp
  cases k with
  | streamEnd => exact scanAsks_bind (scanAsks_act _) fun _ => scanAsks_bind scanAsks_resetAll fun _ => scanAsks_act _
  | directive => exact scanAsks_bind scanAsks_resetAll fun _ => scanAsks_bind (scanAsks_lex (asks_scanDirective f)) fun _ => scanAsks_act _
  | documentStart => exact scanAsks_bind scanAsks_resetAll fun _ => scanAsks_indicator _ _
  | documentEnd => exact scanAsks_bind scanAsks_resetAll fun _ => scanAsks_indicator _ _
  | flowStart d => exact two (scanAsks_bind (scanAsks_act _) fun _ => scanAsks_indicator _ _)
  | flowEnd d => exact two (scanAsks_bind (scanAsks_act _) fun _ => scanAsks_indicator _ _)
  | flowEntry => exact two (scanAsks_indicator _ _)
  | blockEntry => exact two (scanAsks_bind (scanAsks_act _) fun _ => scanAsks_indicator _ _)
  | key => exact two (scanAsks_bind (scanAsks_act _) fun _ => scanAsks_indicator _ _)
  | value => exact scanAsks_bind (scanAsks_act _) fun _ => scanAsks_indicator _ _
  | anchor a => exact two (scanAsks_bind (scanAsks_lex (asks_scanAnchor f a)) fun _ => scanAsks_act _)
  | tag => exact two (scanAsks_bind scanAsks_get fun s => scanAsks_bind (scanAsks_lex (asks_scanTag f _)) fun _ => scanAsks_act _)
  | block l => exact two (scanAsks_bind scanAsks_get fun s => scanAsks_bind (scanAsks_lex (asks_scanBlockScalar f _ l)) fun _ => scanAsks_act _)
  | quoted q => exact two (scanAsks_bind (scanAsks_lex (asks_scanFlowScalar f q)) fun _ => scanAsks_act _)
  | plain =>
    exact two (scanAsks_bind scanAsks_get fun s => scanAsks_bind (scanAsks_lex (asks_scanPlainScalar f _ _)) fun _ =>
      scanAsks_bind (scanAsks_act _) fun _ => scanAsks_act _)
  | unknown => exact fun _ => trivial

theorem scanAsks_fetchNext (f : Nat) : ScanAsks (fetchNext f) := by
  refine scanAsks_bind (scanAsks_lex (asks_cacheC (by decide))) fun _ => scanAsks_bind scanAsks_get fun s => scanAsks_ite ?_ (scanAsks_act _)
  exact scanAsks_bind (scanAsks_lex (asks_scanToNext _ f f _)) fun _ => scanAsks_bind (scanAsks_act _) fun _ =>
    scanAsks_bind (scanAsks_act _) fun _ => scanAsks_bind (scanAsks_act _) fun _ =>
    scanAsks_bind (scanAsks_lex (asks_cacheC (by decide))) fun _ => scanAsks_bind (scanAsks_lex (asks_dispatch _)) fun k => scanAsks_fetchKind f k

theorem scanAsks_fetchMore (f : Nat) : ∀ n, ScanAsks (fetchMore f n)
  | 0 => fun _ => trivial
  | n + 1 => scanAsks_bind scanAsks_get fun _ => scanAsks_ite (scanAsks_bind (scanAsks_fetchNext f) fun _ => scanAsks_fetchMore f n)
      (scanAsks_bind (scanAsks_act _) fun _ => scanAsks_bind scanAsks_get fun _ =>
        scanAsks_ite (scanAsks_bind (scanAsks_fetchNext f) fun _ => scanAsks_fetchMore f n) (scanAsks_pure _))

/-- No request of `yaml_parser_scan` is for more than 8 characters. -/
theorem scanAsks_nextToken (f : Nat) : ScanAsks (nextToken f) :=
  scanAsks_bind (scanAsks_fetchMore f f) fun _ s => by
    split <;> trivial

/-- Nothing is put back. -/
theorem Prog.run_shorter : ∀ {p : Prog α} {i i' : In} {a : α}, p.run i = .ok (a, i') → i'.cs.length ≤ i.cs.length := by
  intro p
  induction p with
  | ret a => intro i i' b h; cases h; exact Nat.le_refl _
  | fail e => intro i i' b h; cases h
  | cache m k ih =>
    intro i i' b h
    simp only [Prog.run] at h
    cases hc : i.cache m with
    | error e => rw [hc] at h; cases h
    | ok j =>
      rw [hc] at h
      have : j.cs = i.cs := by
        unfold In.cache at hc
        split at hc
        · cases hc
        · split at hc
          · cases hc; rfl
          · split at hc
            · cases hc; rfl
            · split at hc
              · cases hc
              · cases hc; rfl
      rw [← this]
      exact ih h
  | look j k ih =>
    intro i i' b h
    simp only [Prog.run] at h
    cases hc : i.look j with
    | error e => rw [hc] at h; cases h
    | ok c => rw [hc] at h; exact ih c h
  | skip k ih =>
    intro i i' b h
    simp only [Prog.run] at h
    cases hc : i.skip with
    | error e => rw [hc] at h; cases h
    | ok j =>
      rw [hc] at h
      refine Nat.le_trans (ih h) ?_
      unfold In.skip at hc
      split at hc
      · cases hc
      · rename_i c cs hcs
        split at hc
        · cases hc
        · cases hc; rw [hcs]; simp

/-- A program that requests at most `n` characters and stops with `n` characters of `w` to come does not depend on what
follows `w`. -/
theorem Prog.Asks.local {n : Nat} (hn : n ≤ maxLookahead) {v v' : List Nat} {bad bad' : Option Fail} {p : Prog α} :
    p.Asks n → ∀ {w : List Nat} {av : Nat} {a : α} {i : In}, av ≤ n → p.run ⟨w ++ v, av, bad⟩ = .ok (a, i) → v.length + n ≤ i.cs.length →
    ∃ w' av', i = ⟨w' ++ v, av', bad⟩ ∧ av' ≤ n ∧ p.run ⟨w ++ v', av, bad'⟩ = .ok (a, ⟨w' ++ v', av', bad'⟩) := by
  induction p with
  | ret b =>
    intro _ w av a i hav h _
    cases h
    exact ⟨w, av, rfl, hav, rfl⟩
  | fail e => intro _ w av a i _ h _; cases h
  | cache m k ih =>
    intro hp w av a i hav h hl
    have hw : n ≤ w.length := by have := Prog.run_shorter h; simp at this; omega
    simp only [Prog.run] at h ⊢
    have hc : ∀ (z : List Nat) (b : Option Fail), In.cache m ⟨w ++ z, av, b⟩ = .ok ⟨w ++ z, if m ≤ av then av else m, b⟩ := by
      intro z b
      unfold In.cache
      rw [if_neg (Nat.not_lt.mpr (Nat.le_trans hp.1 hn))]
      by_cases hm : m ≤ av
      · simp [hm]
      · have : m ≤ (w ++ z).length := by simp; have := hp.1; omega
        simp only [hm, if_false]
        rw [if_pos this]
    rw [hc] at h ⊢
    exact ih hp.2 (by have := hp.1; split <;> omega) h hl
  | look j k ih =>
    intro hp w av a i hav h hl
    have hw : n ≤ w.length := by have := Prog.run_shorter h; simp at this; omega
    simp only [Prog.run] at h ⊢
    have hc : ∀ (z z' : List Nat) (b b' : Option Fail), In.look j ⟨w ++ z, av, b⟩ = In.look j ⟨w ++ z', av, b'⟩ := by
      intro z z' b b'
      unfold In.look
      simp only
      by_cases hj : j < av
      · have hjw : j < w.length := by omega
        rw [List.take_append_of_le_length (Nat.le_of_lt hjw), List.take_append_of_le_length (Nat.le_of_lt hjw),
          List.getElem?_append_left hjw, List.getElem?_append_left hjw]
      · simp [hj]
    rw [hc v' v bad' bad]
    cases hk : In.look j ⟨w ++ v, av, bad⟩ with
    | error e => rw [hk] at h; cases h
    | ok c =>
      rw [hk] at h
      exact ih c (hp c) hav h hl
  | skip k ih =>
    intro hp w av a i hav h hl
    simp only [Prog.run] at h ⊢
    cases w with
    | nil =>
      exfalso
      cases hk : In.skip ⟨[] ++ v, av, bad⟩ with
      | error e => rw [hk] at h; cases h
      | ok j =>
        rw [hk] at h
        have h1 := Prog.run_shorter h
        unfold In.skip at hk
        split at hk
        · cases hk
        · rename_i c cs hcs
          split at hk
          · cases hk
          · cases hk
            simp at hcs h1
            rw [hcs] at hl
            simp at hl
            omega
    | cons c w =>
      unfold In.skip at h ⊢
      simp only [List.cons_append] at h ⊢
      by_cases hz : av = 0
      · rw [if_pos hz] at h; cases h
      · rw [if_neg hz] at h ⊢
        exact ih hp (by omega) h hl

end LibYaml
