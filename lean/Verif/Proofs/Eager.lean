import Verif.Proofs.ScannerEnd
import Verif.Proofs.ParserTags

/-! Fetching tokens eagerly and delivering them one by one gives the same tokens. -/

namespace LibYaml

open Spec

/-- Faults are excluded: every failure is an error reported to the caller. -/
local notation "safe" m:max Q:max s:max i:max => pw m Q Fail.reported s i

/-! ### A scanner from which some tokens were already taken -/

/-- The tokens `d` were delivered. -/
def Scanner.shift (d : List Token) (e : Scanner) : Scanner := { e with tokens := e.tokens.drop d.length, tokensParsed := d.length }

/-- The tokens `d` can be delivered: no pending key is before the end of `d`. -/
structure Shiftable (d : List Token) (e : Scanner) : Prop where
  zero : e.tokensParsed = 0
  pre : ∃ q, e.tokens = d ++ q
  keys : ∀ k ∈ e.keys, k.possible = true → d.length ≤ k.tokenNumber

/-- What the action does to the full queue it does to the rest of the queue. -/
def ActShift (g : Scanner → Except Fail Scanner) : Prop :=
  ∀ d e e', Shiftable d e → g e = .ok e' → Shiftable d e' ∧ g (e.shift d) = .ok (e'.shift d)

def Shifts {α : Type} (p : SM α) : Prop :=
  ∀ d e i a e' i', Shiftable d e → (p e).run i = .ok ((a, e'), i') →
    Shiftable d e' ∧ (p (e.shift d)).run i = .ok ((a, e'.shift d), i')

section
variable {α β : Type}

theorem sm_run_bind (p : SM α) (k : α → SM β) (s : Scanner) (i : In) :
    ((p >>= k) s).run i = (match (p s).run i with
      | .ok ((a, s'), i') => (k a s').run i'
      | .error e => .error e) := by
  have : (p >>= k) s = (p s).bind fun q => k q.1 q.2 := rfl
  rw [this, Prog.run_bind]
  cases (p s).run i <;> rfl

theorem shifts_bind {p : SM α} {k : α → SM β} (hp : Shifts p) (hk : ∀ a, Shifts (k a)) : Shifts (p >>= k) := by
  intro d e i b e' i' hd h
  rw [sm_run_bind] at h ⊢
  cases hr : (p e).run i with
  | error er => rw [hr] at h; cases h
  | ok r =>
    obtain ⟨⟨a, e1⟩, i1⟩ := r
    rw [hr] at h
    obtain ⟨h1, h2⟩ := hp d e i a e1 i1 hd hr
    rw [h2]
    exact hk a d e1 i1 b e' i' h1 h

theorem shifts_pure {a : α} : Shifts (pure a) := by
  intro d e i b e' i' hd h
  cases h
  exact ⟨hd, rfl⟩

theorem shifts_get {k : Scanner → SM β} (hk : ∀ s, Shifts (k s)) (hs : ∀ d s, k (s.shift d) = k s) : Shifts (get >>= k) := by
  intro d e i b e' i' hd h
  have h1 : (k e e).run i = .ok ((b, e'), i') := h
  obtain ⟨h2, h3⟩ := hk e d e i b e' i' hd h1
  refine ⟨h2, ?_⟩
  show (k (e.shift d) (e.shift d)).run i = _
  rw [hs]; exact h3

theorem shifts_lex {x : Lex α} : Shifts (lex x) := by
  intro d e i a e' i' hd h
  unfold lex at h ⊢
  rw [Prog.run_bind] at h ⊢
  have : (e.shift d).mark = e.mark := rfl
  rw [this]
  cases hr : (x e.mark).run i with
  | error er => rw [hr] at h; cases h
  | ok r =>
    obtain ⟨⟨b, m⟩, i1⟩ := r
    rw [hr] at h
    have h : Except.ok ((b, { e with mark := m }), i1) = Except.ok (ε := Fail) ((a, e'), i') := h
    cases h
    exact ⟨⟨hd.zero, hd.pre, hd.keys⟩, rfl⟩

theorem shifts_act {g : Scanner → Except Fail Scanner} (hg : ActShift g) : Shifts (act g) := by
  intro d e i a e' i' hd h
  unfold act at h ⊢
  cases hr : g e with
  | error er => rw [hr] at h; cases h
  | ok e1 =>
    rw [hr] at h
    cases h
    obtain ⟨h1, h2⟩ := hg d e e' hd hr
    rw [h2]
    exact ⟨h1, rfl⟩

theorem shifts_ite {c : Prop} [Decidable c] {p q : SM α} (hp : Shifts p) (hq : Shifts q) : Shifts (if c then p else q) := by
  by_cases h : c
  · rw [if_pos h]; exact hp
  · rw [if_neg h]; exact hq

theorem shifts_fail {g : Scanner → Fail} : Shifts (fun s => .fail (g s) : SM α) := by
  intro d e i a e' i' hd h
  cases h

end

/-! ### The actions -/

theorem as_enqueue {t : Token} : ActShift (Scanner.enqueue t) := by
  intro d e e' hd h
  cases h
  obtain ⟨q, hq⟩ := hd.pre
  refine ⟨⟨hd.zero, ⟨q ++ [t], by simp [hq]⟩, hd.keys⟩, ?_⟩
  simp [Scanner.enqueue, Scanner.shift, hq]

theorem as_allow {b : Bool} : ActShift (Scanner.allow b) := by
  intro d e e' hd h
  cases h
  exact ⟨⟨hd.zero, hd.pre, hd.keys⟩, rfl⟩

theorem as_allowOf {g : Scanner → Bool} (hg : ∀ d s, g (s.shift d) = g s) : ActShift (fun s => s.allow (g s)) := by
  intro d e e' hd h
  cases h
  refine ⟨⟨hd.zero, hd.pre, hd.keys⟩, ?_⟩
  show Except.ok _ = _
  rw [hg]; rfl

theorem as_mark {g : Mark → Mark} : ActShift (fun s => .ok { s with mark := g s.mark }) := by
  intro d e e' hd h
  cases h
  exact ⟨⟨hd.zero, hd.pre, hd.keys⟩, rfl⟩

theorem as_enqueueAt {data : TokData} : ActShift (fun s => s.enqueue { data := data, start := s.mark, stop := s.mark }) := by
  intro d e e' hd h
  exact as_enqueue (t := { data := data, start := e.mark, stop := e.mark }) d e e' hd h

theorem as_removeKey : ActShift Scanner.removeKey := by
  intro d e e' hd h
  unfold Scanner.removeKey at *
  have hk : (e.shift d).keys = e.keys := rfl
  rw [hk]
  cases hks : e.keys with
  | nil => rw [hks] at h; cases h
  | cons k ks =>
    rw [hks] at h
    simp only at h ⊢
    by_cases hc : (k.possible && k.required) = true
    · rw [if_pos hc] at h; cases h
    · rw [if_neg hc] at h ⊢
      cases h
      refine ⟨⟨hd.zero, hd.pre, fun k' hk' hp => ?_⟩, rfl⟩
      rcases List.mem_cons.mp hk' with rfl | hk'
      · cases hp
      · exact hd.keys k' (by rw [hks]; simp [hk']) hp

theorem as_saveKey : ActShift Scanner.saveKey := by
  intro d e e' hd h
  unfold Scanner.saveKey at *
  have ha : (e.shift d).allowed = e.allowed := rfl
  rw [ha]
  by_cases hal : e.allowed = true
  · rw [if_pos hal] at h ⊢
    cases hr : e.removeKey with
    | error er => rw [hr] at h; cases h
    | ok e1 =>
      rw [hr] at h
      obtain ⟨h1, h2⟩ := as_removeKey d e e1 hd hr
      rw [h2]
      simp only at h ⊢
      have hk : (e1.shift d).keys = e1.keys := rfl
      rw [hk]
      cases hks : e1.keys with
      | nil => rw [hks] at h; cases h
      | cons k ks =>
        rw [hks] at h
        simp only at h ⊢
        cases h
        obtain ⟨q, hq⟩ := h1.pre
        refine ⟨⟨h1.zero, h1.pre, fun k' hk' hp => ?_⟩, ?_⟩
        · rcases List.mem_cons.mp hk' with rfl | hk'
          · show d.length ≤ e1.tokensParsed + e1.tokens.length
            rw [hq]; simp; omega
          · exact h1.keys k' (by rw [hks]; simp [hk']) hp
        · have : (e1.shift d).tokensParsed + (e1.shift d).tokens.length = e1.tokensParsed + e1.tokens.length := by
            show d.length + (e1.tokens.drop d.length).length = _
            rw [h1.zero, hq]; simp
          rw [this]; rfl
  · rw [if_neg hal] at h ⊢
    cases h
    exact ⟨hd, rfl⟩

theorem as_increaseFlow : ActShift Scanner.increaseFlow := by
  intro d e e' hd h
  unfold Scanner.increaseFlow at *
  have hf : (e.shift d).flowLevel = e.flowLevel := rfl
  rw [hf]
  by_cases hc : e.flowLevel = maxInt
  · rw [if_pos hc] at h; cases h
  · rw [if_neg hc] at h ⊢
    cases h
    refine ⟨⟨hd.zero, hd.pre, fun k' hk' hp => ?_⟩, rfl⟩
    rcases List.mem_cons.mp hk' with rfl | hk'
    · cases hp
    · exact hd.keys k' hk' hp

theorem as_decreaseFlow : ActShift Scanner.decreaseFlow := by
  intro d e e' hd h
  unfold Scanner.decreaseFlow at *
  have hf : (e.shift d).flowLevel = e.flowLevel := rfl
  rw [hf]
  cases hl : e.flowLevel with
  | zero => rw [hl] at h; cases h; exact ⟨hd, rfl⟩
  | succ l =>
    rw [hl] at h
    simp only at h ⊢
    have hk : (e.shift d).keys = e.keys := rfl
    rw [hk]
    cases hks : e.keys with
    | nil => rw [hks] at h; cases h
    | cons k ks =>
      rw [hks] at h
      cases h
      exact ⟨⟨hd.zero, hd.pre, fun k' hk' hp => hd.keys k' (by rw [hks]; simp [hk']) hp⟩, rfl⟩

theorem shift_insert {n : Nat} {t : Token} {d : List Token} {e e' : Scanner} (hd : Shiftable d e) (hn : d.length ≤ n)
    (h : e.insert n t = .ok e') : Shiftable d e' ∧ (e.shift d).insert n t = .ok (e'.shift d) := by
  unfold Scanner.insert at *
  obtain ⟨q, hq⟩ := hd.pre
  have hz : n - e.tokensParsed = n := by rw [hd.zero]; rfl
  rw [hz] at h
  by_cases hc : e.tokens.length < n
  · rw [if_pos (.inr hc)] at h; cases h
  · rw [if_neg (by rw [hd.zero]; omega)] at h
    cases h
    have htk : e.tokens.take n = d ++ q.take (n - d.length) := by rw [hq, List.take_append, List.take_of_length_le hn]
    have hdr : e.tokens.drop n = q.drop (n - d.length) := by rw [hq, List.drop_append, List.drop_eq_nil_of_le hn]; simp
    refine ⟨⟨hd.zero, ⟨q.take (n - d.length) ++ t :: q.drop (n - d.length), by simp [htk, hdr]⟩, hd.keys⟩, ?_⟩
    have h1 : (e.shift d).tokensParsed = d.length := rfl
    have h2 : (e.shift d).tokens = q := by simp [Scanner.shift, hq]
    rw [h1, h2, if_neg (by rw [hq] at hc; simp at hc; omega)]
    simp [Scanner.shift, htk, hdr]

theorem shift_roll {c : Nat} {n : Option Nat} {data : TokData} {m : Mark} {d : List Token} {e e' : Scanner} (hd : Shiftable d e)
    (hn : ∀ k, n = some k → d.length ≤ k) (h : e.rollIndent c n data m = .ok e') :
    Shiftable d e' ∧ (e.shift d).rollIndent c n data m = .ok (e'.shift d) := by
  unfold Scanner.rollIndent at *
  have hf : (e.shift d).flowLevel = e.flowLevel := rfl
  have hi : (e.shift d).indent = e.indent := rfl
  rw [hf, hi]
  by_cases h1 : e.flowLevel ≠ 0
  · rw [if_pos h1] at h ⊢; cases h; exact ⟨hd, rfl⟩
  rw [if_neg h1] at h ⊢
  by_cases h2 : e.indent < c
  · rw [if_pos h2] at h ⊢
    by_cases h3 : c > maxInt
    · rw [if_pos h3] at h; cases h
    · rw [if_neg h3] at h ⊢
      have hd' : Shiftable d { e with indents := e.indent :: e.indents, indent := (c : Int) } := ⟨hd.zero, hd.pre, hd.keys⟩
      cases n with
      | none => exact as_enqueue d _ e' hd' h
      | some k => exact shift_insert hd' (hn k rfl) h
  · rw [if_neg h2] at h ⊢; cases h; exact ⟨hd, rfl⟩

theorem unrollLoop_shift {c : Int} {m : Mark} {ind : Int} {inds : List Int} {d q : List Token} {r : Int × List Int × List Token}
    (h : unrollLoop c m ind inds (d ++ q) = .ok r) :
    ∃ q', r.2.2 = d ++ q' ∧ unrollLoop c m ind inds q = .ok (r.1, r.2.1, q') := by
  induction inds generalizing ind q with
  | nil =>
    unfold unrollLoop at *
    by_cases hc : ind > c
    · rw [if_pos hc] at h; cases h
    · rw [if_neg hc] at h ⊢; cases h; exact ⟨q, rfl, rfl⟩
  | cons i is ih =>
    unfold unrollLoop at h ⊢
    by_cases hc : ind > c
    · rw [if_pos hc] at h ⊢
      rw [List.append_assoc] at h
      exact ih h
    · rw [if_neg hc] at h ⊢; cases h; exact ⟨q, rfl, rfl⟩

theorem shift_unroll {c : Int} {d : List Token} {e e' : Scanner} (hd : Shiftable d e) (h : e.unrollIndent c = .ok e') :
    Shiftable d e' ∧ (e.shift d).unrollIndent c = .ok (e'.shift d) := by
  unfold Scanner.unrollIndent at *
  have hf : (e.shift d).flowLevel = e.flowLevel := rfl
  rw [hf]
  by_cases h1 : e.flowLevel ≠ 0
  · rw [if_pos h1] at h ⊢; cases h; exact ⟨hd, rfl⟩
  rw [if_neg h1] at h ⊢
  obtain ⟨q, hq⟩ := hd.pre
  cases hu : unrollLoop c e.mark e.indent e.indents e.tokens with
  | error er => rw [hu] at h; cases h
  | ok r =>
    rw [hu] at h
    obtain ⟨a, b, t⟩ := r
    simp only at h
    cases h
    rw [hq] at hu
    obtain ⟨q', h2, h3⟩ := unrollLoop_shift hu
    have h2 : t = d ++ q' := h2
    have h4 : (e.shift d).tokens = q := by simp [Scanner.shift, hq]
    refine ⟨⟨hd.zero, ⟨q', h2⟩, hd.keys⟩, ?_⟩
    rw [h4]
    have h5 : unrollLoop c (e.shift d).mark (e.shift d).indent (e.shift d).indents q = .ok (a, b, q') := h3
    rw [h5]
    simp [Scanner.shift, h2]

theorem as_unroll {c : Int} : ActShift (Scanner.unrollIndent c) := fun _ _ _ hd h => shift_unroll hd h
theorem as_unrollAt : ActShift (fun s => s.unrollIndent s.mark.column) := by
  intro d e e' hd h
  exact shift_unroll (c := e.mark.column) hd h

theorem as_stale : ActShift Scanner.stale := by
  intro d e e' hd h
  unfold Scanner.stale at *
  have hk : (e.shift d).keys = e.keys := rfl
  have hm : (e.shift d).mark = e.mark := rfl
  rw [hk, hm]
  cases hs : staleKeys e.mark e.keys with
  | error er => rw [hs] at h; cases h
  | ok ks =>
    rw [hs] at h
    cases h
    obtain ⟨rfl, _⟩ := staleKeys_ok hs
    exact ⟨⟨hd.zero, hd.pre, fun k hk hp => hd.keys k (mem_dropStale hk hp).1 hp⟩, rfl⟩

theorem as_startBlock {data : TokData} {p : String} : ActShift (startBlock data p) := by
  intro d e e' hd h
  unfold startBlock at *
  have hf : (e.shift d).flowLevel = e.flowLevel := rfl
  have ha : (e.shift d).allowed = e.allowed := rfl
  have hm : (e.shift d).mark = e.mark := rfl
  rw [hf, ha, hm]
  by_cases h1 : e.flowLevel = 0
  · rw [if_pos h1] at h ⊢
    by_cases h2 : e.allowed = true
    · rw [if_pos h2] at h ⊢; exact shift_roll hd (by simp) h
    · rw [if_neg h2] at h; cases h
  · rw [if_neg h1] at h ⊢; cases h; exact ⟨hd, rfl⟩

theorem shift_insertKey {k : SimpleKey} {d : List Token} {e e' : Scanner} (hd : Shiftable d e) (hn : d.length ≤ k.tokenNumber)
    (h : e.insertKey k = .ok e') : Shiftable d e' ∧ (e.shift d).insertKey k = .ok (e'.shift d) := by
  unfold Scanner.insertKey at *
  cases h1 : e.insert k.tokenNumber { data := .key, start := k.mark, stop := k.mark } with
  | error er => rw [h1] at h; cases h
  | ok e1 =>
    rw [h1] at h
    obtain ⟨g1, g2⟩ := shift_insert hd hn h1
    rw [g2]
    simp only at h ⊢
    cases h2 : e1.rollIndent k.mark.column (some k.tokenNumber) .blockMappingStart k.mark with
    | error er => rw [h2] at h; cases h
    | ok e2 =>
      rw [h2] at h
      obtain ⟨g3, g4⟩ := shift_roll g1 (by intro x hx; cases hx; exact hn) h2
      rw [g4]
      simp only at h ⊢
      cases h
      refine ⟨⟨g3.zero, g3.pre, fun k' hk' hp => ?_⟩, rfl⟩
      rcases List.mem_cons.mp hk' with rfl | hk'
      · cases hp
      · exact g3.keys k' (List.mem_of_mem_tail hk') hp

theorem as_valueKey : ActShift valueKey := by
  intro d e e' hd h
  unfold valueKey at *
  have hk : (e.shift d).keys = e.keys := rfl
  rw [hk]
  cases hks : e.keys with
  | nil => rw [hks] at h; cases h
  | cons k ks =>
    rw [hks] at h
    simp only at h ⊢
    by_cases hp : k.possible = true
    · rw [if_pos hp] at h ⊢
      exact shift_insertKey hd (hd.keys k (by rw [hks]; simp) hp) h
    · rw [if_neg hp] at h ⊢
      cases h1 : startBlock .blockMappingStart "mapping values are not allowed in this context" e with
      | error er => rw [h1] at h; cases h
      | ok e1 =>
        rw [h1] at h
        obtain ⟨g1, g2⟩ := as_startBlock d e e1 hd h1
        rw [g2]
        exact as_allowOf (g := fun s => s.flowLevel == 0) (fun _ _ => rfl) d e1 e' g1 h

/-! ### The fetchers -/

theorem shifts_resetAll : Shifts resetAll :=
  shifts_bind (shifts_act as_unroll) fun _ => shifts_bind (shifts_act as_removeKey) fun _ => shifts_act as_allow

theorem shifts_indicator {n : Nat} {data : TokData} : Shifts (fetchIndicator n data) :=
  shifts_get (fun _ => shifts_bind shifts_lex fun _ => shifts_get (fun _ => shifts_act as_enqueue) fun _ _ => rfl) fun _ _ => rfl

theorem shifts_lexed {x : Lex Token} : Shifts (do let t ← lex x; act (Scanner.enqueue t)) :=
  shifts_bind shifts_lex fun _ => shifts_act as_enqueue

theorem shifts_fetchKind {f : Nat} (k : Kind) : Shifts (fetchKind f k) := by
  have h2 {a b : Bool} {p : SM Unit} (hp : Shifts p) : Shifts (do act Scanner.saveKey; act (Scanner.allow b); p) :=
    shifts_bind (shifts_act as_saveKey) fun _ => shifts_bind (shifts_act as_allow) fun _ => hp
  cases k with
  | streamEnd => exact shifts_bind (shifts_act as_mark) fun _ => shifts_bind shifts_resetAll fun _ => shifts_act as_enqueueAt
  | directive => exact shifts_bind shifts_resetAll fun _ => shifts_lexed
  | documentStart => exact shifts_bind shifts_resetAll fun _ => shifts_indicator
  | documentEnd => exact shifts_bind shifts_resetAll fun _ => shifts_indicator
  | flowStart d =>
    exact shifts_bind (shifts_act as_saveKey) fun _ => shifts_bind (shifts_act as_increaseFlow) fun _ =>
      shifts_bind (shifts_act as_allow) fun _ => shifts_indicator
  | flowEnd d =>
    exact shifts_bind (shifts_act as_removeKey) fun _ => shifts_bind (shifts_act as_decreaseFlow) fun _ =>
      shifts_bind (shifts_act as_allow) fun _ => shifts_indicator
  | flowEntry =>
    exact shifts_bind (shifts_act as_removeKey) fun _ => shifts_bind (shifts_act as_allow) fun _ => shifts_indicator
  | blockEntry =>
    exact shifts_bind (shifts_act as_startBlock) fun _ => shifts_bind (shifts_act as_removeKey) fun _ =>
      shifts_bind (shifts_act as_allow) fun _ => shifts_indicator
  | key =>
    exact shifts_bind (shifts_act as_startBlock) fun _ => shifts_bind (shifts_act as_removeKey) fun _ =>
      shifts_bind (shifts_act (as_allowOf fun _ _ => rfl)) fun _ => shifts_indicator
  | value => exact shifts_bind (shifts_act as_valueKey) fun _ => shifts_indicator
  | anchor a => exact h2 (a := true) shifts_lexed
  | tag => exact h2 (a := true) (shifts_get (fun _ => shifts_lexed) fun _ _ => rfl)
  | block l =>
    exact shifts_bind (shifts_act as_removeKey) fun _ => shifts_bind (shifts_act as_allow) fun _ =>
      shifts_get (fun _ => shifts_lexed) fun _ _ => rfl
  | quoted b => exact h2 (a := true) shifts_lexed
  | plain =>
    exact h2 (a := true) (shifts_get (fun s => shifts_bind shifts_lex fun r =>
      shifts_bind (shifts_act (as_allowOf (g := fun s => r.2 || s.allowed) fun _ _ => rfl)) fun _ => shifts_act as_enqueue) fun _ _ => rfl)
  | unknown => exact shifts_fail (g := fun s => .scanner (some "while scanning for the next token") s.mark _ s.mark)

/-- `yaml_parser_fetch_next_token` after white space and comments were skipped. -/
def tailNext (f : Nat) (flow : Bool) : SM Unit := do
  act Scanner.stale
  act fun s => s.unrollIndent s.mark.column
  lex (cacheC 4)
  let kind ← lex (dispatch flow)
  fetchKind f kind

theorem shifts_tailNext {f : Nat} {flow : Bool} : Shifts (tailNext f flow) :=
  shifts_bind (shifts_act as_stale) fun _ => shifts_bind (shifts_act as_unrollAt) fun _ => shifts_bind shifts_lex fun _ =>
    shifts_bind shifts_lex fun _ => shifts_fetchKind _

theorem as_streamStart : ActShift (fun s => .ok { s with
    indent := -1, keys := {} :: s.keys, allowed := true, startProduced := true
    tokens := s.tokens ++ [{ data := .streamStart s.enc, start := s.mark, stop := s.mark }] }) := by
  intro d e e' hd h
  cases h
  obtain ⟨q, hq⟩ := hd.pre
  refine ⟨⟨hd.zero, ⟨q ++ [{ data := .streamStart e.enc, start := e.mark, stop := e.mark }], by simp [hq]⟩, fun k' hk' hp => ?_⟩, ?_⟩
  · rcases List.mem_cons.mp hk' with rfl | hk'
    · cases hp
    · exact hd.keys k' hk' hp
  · simp [Scanner.shift, hq]

theorem shifts_fetchNext {f : Nat} : Shifts (fetchNext f) := by
  unfold fetchNext
  refine shifts_bind shifts_lex fun _ => shifts_get (fun s => shifts_ite ?_ (shifts_act as_streamStart)) fun _ _ => rfl
  exact shifts_bind shifts_lex fun _ => shifts_bind (shifts_act as_allow) fun _ => shifts_tailNext

/-! ### Dropping stale keys twice -/

/-- The state after `yaml_parser_stale_simple_keys`. -/
def Scanner.age (s : Scanner) : Scanner := { s with keys := s.keys.map (dropStale s.mark) }

theorem stale_mono {m m' : Mark} {k : SimpleKey} (hl : m.line ≤ m'.line) (hi : m.index ≤ m'.index) (h : k.stale m = true) :
    k.stale m' = true := by
  simp only [SimpleKey.stale, Bool.and_eq_true, Bool.or_eq_true, decide_eq_true_eq] at *
  exact ⟨h.1, h.2.elim (fun h => .inl (by omega)) (fun h => .inr (by omega))⟩

theorem dropStale_twice {m m' : Mark} {k : SimpleKey} (hl : m.line ≤ m'.line) (hi : m.index ≤ m'.index) :
    dropStale m' (dropStale m k) = dropStale m' k := by
  by_cases h : k.stale m = true
  · have h' := stale_mono hl hi h
    have h0 : (dropStale m k) = { k with possible := false } := if_pos h
    rw [h0]
    have : dropStale m' { k with possible := false } = { k with possible := false } := if_neg (by simp [SimpleKey.stale])
    rw [this, show dropStale m' k = { k with possible := false } from if_pos h']
  · rw [show dropStale m k = k from if_neg h]

theorem staleKeys_of {m : Mark} {ks : List SimpleKey} (h : ∀ k ∈ ks, k.stale m = true → k.required = false) :
    staleKeys m ks = .ok (ks.map (dropStale m)) := by
  cases hs : staleKeys m ks with
  | ok ks' => rw [(staleKeys_ok hs).1]
  | error er =>
    exfalso
    induction ks generalizing er with
    | nil => cases hs
    | cons k ks ih =>
      simp only [staleKeys] at hs
      cases hr : staleKeys m ks with
      | error er' => exact ih (fun k' hk' => h k' (by simp [hk'])) er' hr
      | ok ks' =>
        rw [hr] at hs
        simp only at hs
        by_cases h1 : k.stale m = true
        · rw [if_pos h1, h k (by simp) h1] at hs; cases hs
        · rw [if_neg h1] at hs; cases hs

theorem staleKeys_twice {m m' : Mark} {ks ks' : List SimpleKey} (hl : m.line ≤ m'.line) (hi : m.index ≤ m'.index)
    (h : staleKeys m' ks = .ok ks') :
    staleKeys m' (ks.map (dropStale m)) = .ok ks' ∧ staleKeys m ks = .ok (ks.map (dropStale m)) := by
  obtain ⟨rfl, hreq⟩ := staleKeys_ok h
  have he : (ks.map (dropStale m)).map (dropStale m') = ks.map (dropStale m') := by
    rw [List.map_map]
    exact List.map_congr_left fun k _ => dropStale_twice hl hi
  constructor
  · rw [← he]
    refine staleKeys_of fun k hk hs => ?_
    obtain ⟨k0, h0, rfl⟩ := List.mem_map.mp hk
    have hp : (dropStale m k0).possible = true := by
      simp only [SimpleKey.stale, Bool.and_eq_true] at hs
      exact hs.1
    rw [(dropStale_possible hp).1] at hs ⊢
    exact hreq k0 h0 hs
  · exact staleKeys_of fun k hk hs => hreq k hk (stale_mono hl hi hs)

/-! ### Steps -/

section
variable {T : List Nat} {f : Nat}

theorem fetchNext_age {s : Scanner} {i : In} {r : (Unit × Scanner) × In} (h : Running T none [] s i) (hf : i.cs.length < f)
    (hr : (fetchNext f s).run i = .ok r) :
    (fetchNext f s.age).run i = .ok r ∧ staleKeys s.mark s.keys = .ok (s.keys.map (dropStale s.mark)) := by
  have key : ∀ g, fetchNext f = g → g = (do
      lex (cacheC 1)
      let s ← get
      if s.startProduced then
        let allowed ← lex (scanToNext (s.flowLevel != 0) f f s.allowed)
        act (Scanner.allow allowed)
        tailNext f (s.flowLevel != 0)
      else fetchStreamStart) := fun g hg => hg ▸ rfl
  rw [key _ rfl] at hr ⊢
  have hsafe := safe_cache (T := T) (e := none) (start := s.mark) (n := 1) (m := s.mark) (i := i) (Q := fun _ m i' => pw (scanToNext (s.flowLevel != 0) f f s.allowed)
    (fun _ m' i2 => At T none m' i2 ∧ i2.cs.length ≤ i.cs.length) (Points T none s.mark) m i') (by intro er h; cases h) h.base.pos (by decide) fun i1 h1 c1 hh1 =>
    safe_scanToNext (by intro er h; cases h) h1 (by rw [c1]; exact hf) (by rw [c1]; exact hf) fun a m2 i2 h2 l2 _ _ => ⟨h2, by rw [c1] at l2; exact l2⟩
  rw [sm_run_bind] at hr ⊢
  unfold lex at hr ⊢
  rw [Prog.run_bind] at hr ⊢
  have hm : s.age.mark = s.mark := rfl
  rw [hm]
  unfold pw at hsafe
  cases hc : (cacheC 1 s.mark).run i with
  | error er => rw [hc] at hr; cases hr
  | ok x =>
    obtain ⟨⟨u, m1⟩, i1⟩ := x
    rw [hc] at hr hsafe
    simp only [Prog.run] at hr hsafe ⊢
    have hget : ∀ (k : Scanner → SM Unit) (s : Scanner) (i : In), ((get >>= k) s).run i = (k s s).run i := fun _ _ _ => rfl
    rw [hget] at hr ⊢
    rw [if_pos h.base.started] at hr
    have hst : ({ s.age with mark := m1 } : Scanner).startProduced = true := h.base.started
    rw [if_pos hst]
    rw [sm_run_bind] at hr ⊢
    rw [Prog.run_bind] at hr ⊢
    have e1 : ((scanToNext (({ s.age with mark := m1 } : Scanner).flowLevel != 0) f f ({ s.age with mark := m1 } : Scanner).allowed) ({ s.age with mark := m1 } : Scanner).mark).run i1
        = ((scanToNext (s.flowLevel != 0) f f s.allowed) m1).run i1 := rfl
    rw [e1]
    cases hc2 : ((scanToNext (s.flowLevel != 0) f f s.allowed) m1).run i1 with
    | error er => rw [hc2] at hr; cases hr
    | ok y =>
      obtain ⟨⟨a, m2⟩, i2⟩ := y
      rw [hc2] at hr hsafe
      simp only [Prog.run] at hr hsafe ⊢
      have hl := pos_line_le h.base.pos.onPath hsafe.1.onPath (index_le h.base.pos hsafe.1 hsafe.2)
      have hi := index_le h.base.pos hsafe.1 hsafe.2
      rw [sm_run_bind] at hr ⊢
      have e2 : ∀ s1 : Scanner, (act (Scanner.allow a) s1).run i2 = .ok (((), { s1 with allowed := a }), i2) := fun _ => rfl
      rw [e2] at hr ⊢
      simp only at hr ⊢
      unfold tailNext at hr ⊢
      rw [sm_run_bind] at hr ⊢
      have e3 : ∀ s1 : Scanner, (act Scanner.stale s1).run i2 = (match staleKeys s1.mark s1.keys with
          | .error e => .error e
          | .ok ks => .ok (((), { s1 with keys := ks }), i2)) := by
        intro s1
        unfold act Scanner.stale
        cases staleKeys s1.mark s1.keys <;> rfl
      rw [e3] at hr ⊢
      simp only at hr ⊢
      cases hk : staleKeys m2 s.keys with
      | error er => rw [hk] at hr; cases hr
      | ok ks =>
        rw [hk] at hr
        obtain ⟨g1, g2⟩ := staleKeys_twice hl hi hk
        refine ⟨?_, g2⟩
        have e4 : staleKeys m2 s.age.keys = .ok ks := g1
        rw [e4]
        exact hr

/-- A run of the fetching of tokens, one call after the other, with a bound for the depth. -/
inductive Chain (T : List Nat) (f B : Nat) : Nat → Scanner → In → Scanner → In → Prop
  | nil (s i) : s.indents.length + s.flowLevel ≤ B → Chain T f B 0 s i s i
  | cons {n s i s1 i1 s' i'} (h : FreshSt T none s i ∨ Running T none [] s i) (hd : s.indents.length + s.flowLevel ≤ B)
      (hr : (fetchNext f s).run i = .ok (((), s1), i1)) (h1 : Chain T f B n s1 i1 s' i') : Chain T f B (n + 1) s i s' i'

theorem Chain.depth {B n : Nat} {s s' : Scanner} {i i' : In} (h : Chain T f B n s i s' i') : s.indents.length + s.flowLevel ≤ B := by
  cases h with
  | nil _ _ h => exact h
  | cons _ h _ _ => exact h

theorem Chain.snoc {B n : Nat} {s s' s2 : Scanner} {i i' i2 : In} (h : Chain T f B n s i s' i')
    (h1 : FreshSt T none s' i' ∨ Running T none [] s' i') (hr : (fetchNext f s').run i' = .ok (((), s2), i2))
    (hd : s2.indents.length + s2.flowLevel ≤ B) : Chain T f B (n + 1) s i s2 i2 := by
  induction h with
  | nil s i h0 => exact .cons h1 h0 hr (.nil _ _ hd)
  | cons h0 hd0 hr0 _ ih => exact .cons h0 hd0 hr0 (ih h1 hr)

theorem Chain.shiftable {B n : Nat} {s s' : Scanner} {i i' : In} (h : Chain T f B n s i s' i') {d : List Token}
    (hd : Shiftable d s) : Shiftable d s' := by
  induction h with
  | nil => exact hd
  | cons _ _ hr _ ih => exact ih (shifts_fetchNext d _ _ _ _ _ hd hr).1

theorem not_ended {s : Scanner} {i : In} (h : FreshSt T none s i ∨ Running T none [] s i) (he : ScanEnded T [] s i) : False := by
  have hfin := he.final
  obtain ⟨A0, B, x, m, u, r, k1, _, _, _, _, hx, _⟩ := hfin.parts
  rcases h with h0 | h0
  · have : s.tokens = [] := by rw [h0.eq]
    rw [this] at k1; simp at k1
  · refine running_no_end (s := s) h0.base.toks x ?_ (by rw [hx])
    rw [k1]; simp

theorem Chain.ended {B n : Nat} {s s' : Scanner} {i i' : In} (h : Chain T f B n s i s' i') (he : ScanEnded T [] s i) : n = 0 := by
  cases h with
  | nil => rfl
  | cons h _ _ _ => exact (not_ended h he).elim

theorem noBad : BadOk none := by intro er h; cases h

theorem step_running {s s1 : Scanner} {i i1 : In} (hf : T.length + 2 < f) (h : Running T none [] s i)
    (hr : (fetchNext f s).run i = .ok (((), s1), i1)) : (Running T none [] s1 i1 ∧ i1.cs.length < i.cs.length) ∨ ScanEnded T [] s1 i1 := by
  have hl := h.base.pos.index
  have hs := sm_fetchNext (f := f) (Q := fun _ s' i' => (Running T none [] s' i' ∧ i'.cs.length < i.cs.length) ∨ ScanEnded T [] s' i')
    noBad h (by omega) (fun s' i' a b => .inl ⟨a, b⟩) (fun s' i' a => .inr a)
  unfold pw at hs
  rw [hr] at hs
  exact hs

theorem step_fresh {s s1 : Scanner} {i i1 : In} (h : FreshSt T none s i)
    (hr : (fetchNext f s).run i = .ok (((), s1), i1)) : Running T none [] s1 i1 ∧ i1.cs.length ≤ i.cs.length := by
  have hs := sm_fetchFirst (f := f) (Q := fun _ s' i' => Running T none [] s' i' ∧ i'.cs.length ≤ i.cs.length)
    noBad h (fun s' i' a b => ⟨a, b⟩)
  unfold pw at hs
  rw [hr] at hs
  exact hs

theorem chain_running {B n : Nat} {s s' : Scanner} {i i' : In} (hf : T.length + 2 < f) (h : Chain T f B n s i s' i')
    (h0 : Running T none [] s i) : n ≤ i.cs.length + 1 := by
  induction h with
  | nil => omega
  | cons _ _ hr h1 ih =>
    rcases step_running hf h0 hr with ⟨a, b⟩ | a
    · have := ih a; omega
    · have := h1.ended a; omega

theorem chain_bound {B n : Nat} {s s' : Scanner} {i i' : In} (hf : T.length + 2 < f) (h : Chain T f B n s i s' i') :
    n ≤ T.length + 2 := by
  cases h with
  | nil => omega
  | cons h0 hd hr h1 =>
    rcases h0 with h0 | h0
    · have := step_fresh h0 hr
      have := chain_running hf h1 this.1
      have := h0.pos.index
      omega
    · have := chain_running hf (.cons (.inr h0) hd hr h1) h0
      have := h0.base.pos.index
      omega

/-! ### The lazy scanner -/

theorem age_age (s : Scanner) : s.age.age = s.age := by
  unfold Scanner.age
  have : (s.keys.map (dropStale s.mark)).map (dropStale s.mark) = s.keys.map (dropStale s.mark) := by
    rw [List.map_map]
    exact List.map_congr_left fun k _ => dropStale_twice (Nat.le_refl _) (Nat.le_refl _)
  simp only [this]

theorem Shiftable.age {d : List Token} {e : Scanner} (h : Shiftable d e) : Shiftable d e.age :=
  ⟨h.zero, h.pre, fun k hk hp => h.keys k (mem_dropStale hk hp).1 hp⟩

theorem age_fresh {s : Scanner} {i : In} (h : FreshSt T none s i) : s.age = s := by
  have : s.keys = [] := by rw [h.eq]
  unfold Scanner.age
  rw [this]
  show { s with keys := [] } = s
  rw [← this]

/-- The state of the scanner that has delivered `d`, when `e` is the eager one. -/
def Lags (d : List Token) (e l : Scanner) : Prop :=
  (Shiftable d e ∧ l = e.shift d) ∨ (Shiftable d e.age ∧ l = e.age.shift d)

theorem Lags.pre {d : List Token} {e l : Scanner} (h : Lags d e l) : ∃ q, e.tokens = d ++ q ∧ l.tokens = q := by
  rcases h with ⟨h, rfl⟩ | ⟨h, rfl⟩
  · obtain ⟨q, hq⟩ := h.pre
    exact ⟨q, hq, by simp [Scanner.shift, hq]⟩
  · obtain ⟨q, hq⟩ := h.pre
    have hq : e.tokens = d ++ q := hq
    exact ⟨q, hq, by simp [Scanner.shift, Scanner.age, hq]⟩

theorem Lags.aged {d : List Token} {e l : Scanner} (h : Lags d e l) : Shiftable d e.age := by
  rcases h with ⟨h, rfl⟩ | ⟨h, rfl⟩
  · exact h.age
  · exact h

theorem lag_step {d : List Token} {e e1 l : Scanner} {i i1 : In} (hf : T.length + 2 < f) (h : FreshSt T none e i ∨ Running T none [] e i)
    (hr : (fetchNext f e).run i = .ok (((), e1), i1)) (hl : Lags d e l) :
    (fetchNext f l).run i = .ok (((), e1.shift d), i1) ∧ Shiftable d e1 := by
  rcases hl with ⟨hd, rfl⟩ | ⟨hd, rfl⟩
  · have hn := shifts_fetchNext d e i () e1 i1 hd hr
    exact ⟨hn.2, hn.1⟩
  · rcases h with h | h
    · rw [age_fresh h] at hd ⊢
      have hn := shifts_fetchNext d e i () e1 i1 hd hr
      exact ⟨hn.2, hn.1⟩
    · have := h.base.pos.index
      have hn := shifts_fetchNext d e.age i () e1 i1 hd (fetchNext_age h (by omega) hr).1
      exact ⟨hn.2, hn.1⟩

theorem lag_stale {d : List Token} {e l : Scanner} (hk : staleKeys e.mark e.keys = .ok (e.keys.map (dropStale e.mark)))
    (hl : Lags d e l) : l.stale = .ok (e.age.shift d) := by
  rcases hl with ⟨_, rfl⟩ | ⟨_, rfl⟩
  · unfold Scanner.stale
    have : staleKeys (e.shift d).mark (e.shift d).keys = .ok (e.keys.map (dropStale e.mark)) := hk
    rw [this]; rfl
  · unfold Scanner.stale
    have h1 := (staleKeys_twice (Nat.le_refl _) (Nat.le_refl _) hk).1
    have : staleKeys (e.age.shift d).mark (e.age.shift d).keys = .ok (e.keys.map (dropStale e.mark)) := h1
    rw [this]; rfl

theorem fetchMore_lag {B N n : Nat} {d : List Token} {e l eF : Scanner} {i iF : In} (hf : T.length + 2 < f) (h : Chain T f B n e i eF iF)
    (hF : ∀ k ∈ eF.keys, k.possible = false) (hlen : d.length < eF.tokens.length) (hl : Lags d e l) (hn : n < N) :
    ∃ n' e' i' t, Chain T f B n' e' i' eF iF ∧ Shiftable (d ++ [t]) e'.age ∧
      (fetchMore f N l).run i = .ok (((), e'.age.shift d), i') ∧ (e'.age.shift d).tokens = t :: e'.tokens.drop (d.length + 1) := by
  induction N generalizing n e l i with
  | zero => omega
  | succ N ih =>
    have hstep : ∀ n' e1 i1, n = n' + 1 → (FreshSt T none e i ∨ Running T none [] e i) → (fetchNext f e).run i = .ok (((), e1), i1) →
        Chain T f B n' e1 i1 eF iF → ∀ l, Lags d e l → ∃ n' e' i' t, Chain T f B n' e' i' eF iF ∧ Shiftable (d ++ [t]) e'.age ∧
        ((do fetchNext f; fetchMore f N : SM Unit) l).run i = .ok (((), e'.age.shift d), i') ∧
        (e'.age.shift d).tokens = t :: e'.tokens.drop (d.length + 1) := by
      intro n' e1 i1 hn' h0 hr h1 l hl
      obtain ⟨g1, g2⟩ := lag_step hf h0 hr hl
      obtain ⟨n2, e2, i2, t, k1, k2, k3, k4⟩ := ih h1 (.inl ⟨g2, rfl⟩) (by omega)
      refine ⟨n2, e2, i2, t, k1, k2, ?_, k4⟩
      rw [sm_run_bind, g1]; exact k3
    have hget : ∀ (k : Scanner → SM Unit) (s : Scanner) (i : In), ((get >>= k) s).run i = (k s s).run i := fun _ _ _ => rfl
    unfold fetchMore
    simp only [hget]
    obtain ⟨q, hq, hlt⟩ := hl.pre
    by_cases hemp : q = []
    · have : l.tokens.isEmpty = true := by rw [hlt, hemp]; rfl
      rw [if_pos this]
      cases h with
      | nil => rw [hq, hemp] at hlen; simp at hlen
      | cons h0 hd0 hr h1 => exact hstep _ _ _ rfl h0 hr h1 l hl
    · have : ¬ l.tokens.isEmpty = true := by rw [hlt]; simpa using hemp
      rw [if_neg this, sm_run_bind]
      have hk : staleKeys e.mark e.keys = .ok (e.keys.map (dropStale e.mark)) := by
        cases h with
        | nil =>
          refine staleKeys_of fun k hk hs => ?_
          rw [SimpleKey.stale, hF k hk] at hs; cases hs
        | cons h0 hd0 hr h1 =>
          rcases h0 with h0 | h0
          · have : e.keys = [] := by rw [h0.eq]
            rw [this]; rfl
          · have := h0.base.pos.index
            exact (fetchNext_age h0 (by omega) hr).2
      have hst : (act Scanner.stale l).run i = .ok (((), e.age.shift d), i) := by
        unfold act; rw [lag_stale hk hl]; rfl
      rw [hst]
      simp only [hget]
      by_cases hp : (e.age.shift d).headPending = true
      · rw [if_pos hp]
        cases h with
        | nil =>
          exfalso
          unfold Scanner.headPending at hp
          obtain ⟨k, hk, hk'⟩ := List.any_eq_true.mp hp
          simp only [Bool.and_eq_true] at hk'
          have := (mem_dropStale hk hk'.1).1
          rw [hF k this] at hk'; cases hk'.1
        | cons h0 hd0 hr h1 => exact hstep _ _ _ rfl h0 hr h1 _ (.inr ⟨hl.aged, rfl⟩)
      · rw [if_neg hp]
        cases q with
        | nil => exact absurd rfl hemp
        | cons t q =>
          have ha := hl.aged
          refine ⟨n, e, i, t, h, ⟨ha.zero, ⟨q, ?_⟩, fun k hk hpk => ?_⟩, rfl, ?_⟩
          · show e.tokens = _; simp [hq]
          · have h1 := ha.keys k hk hpk
            have h2 : k.tokenNumber ≠ d.length := by
              intro heq
              refine hp ?_
              unfold Scanner.headPending
              refine List.any_eq_true.mpr ⟨k, hk, ?_⟩
              simp [hpk, Scanner.shift, heq]
            simp; omega
          · simp [Scanner.shift, Scanner.age, hq]

theorem nextToken_lag {B n : Nat} {d : List Token} {e l eF : Scanner} {i iF : In} (hf : T.length + 2 < f) (h : Chain T f B n e i eF iF)
    (hF : ∀ k ∈ eF.keys, k.possible = false) (hlen : d.length < eF.tokens.length) (hl : Lags d e l) :
    ∃ n' e' i' t l', Chain T f B n' e' i' eF iF ∧ Lags (d ++ [t]) e' l' ∧ (textSrc f).next (l, i) = .ok (t, (l', i')) ∧
      l'.indents.length + l'.flowLevel ≤ B := by
  obtain ⟨n', e', i', t, h1, h2, h3, h4⟩ := fetchMore_lag hf h hF hlen hl (Nat.lt_of_le_of_lt (chain_bound hf h) (by omega))
  refine ⟨n', e', i', t, e'.age.shift (d ++ [t]), h1, .inr ⟨h2, rfl⟩, ?_, h1.depth⟩
  show (match onList (nextToken f) l i with
    | .error e => Except.error e
    | .ok ((t, s), i) => .ok (t, (s, i))) = _
  have : onList (nextToken f) l i = .ok ((t, e'.age.shift (d ++ [t])), i') := by
    unfold onList nextToken
    rw [sm_run_bind, h3]
    simp only [h4, Prog.run]
    simp [Scanner.shift, Scanner.age]
  rw [this]

/-- All the tokens of an eager run are delivered. -/
theorem feeds_lag {B n k : Nat} {e eF : Scanner} {i iF : In} (hf : T.length + 2 < f) (h : Chain T f B n e i eF iF) (he : e.tokensParsed = 0)
    (het : e.tokens = []) (hk0 : e.keys = []) (hF : ∀ k ∈ eF.keys, k.possible = false) (hk : k ≤ eF.tokens.length) :
    ∃ d n' e' l i', d.length = k ∧ Chain T f B n' e' i' eF iF ∧ Lags d e' l ∧ Feeds (textSrc f) (e, i) d (l, i') ∧
      l.indents.length + l.flowLevel ≤ B := by
  induction k with
  | zero =>
    refine ⟨[], n, e, e, i, rfl, h, .inl ⟨⟨he, ⟨[], het⟩, by simp [hk0]⟩, ?_⟩, .nil _, h.depth⟩
    unfold Scanner.shift
    have : e.tokens.drop 0 = e.tokens := rfl
    show e = { e with tokens := e.tokens.drop 0, tokensParsed := 0 }
    rw [this, ← he]
  | succ k ih =>
    obtain ⟨d, n', e', l, i', h1, h2, h3, h4, _⟩ := ih (by omega)
    obtain ⟨n2, e2, i2, t, l2, g1, g2, g3, g4⟩ := nextToken_lag hf h2 hF (by omega) h3
    exact ⟨d ++ [t], n2, e2, l2, i2, by simp [h1], g1, g2, .snoc h4 g3, g4⟩

theorem Lags.final {B n : Nat} {d : List Token} {e l eF : Scanner} {i iF : In} (hf : T.length + 2 < f) (h : Chain T f B n e i eF iF)
    (hl : Lags d e l) : ∃ q, eF.tokens = d ++ q := by
  cases h with
  | nil => obtain ⟨q, hq, _⟩ := hl.pre; exact ⟨q, hq⟩
  | cons h0 _ hr h1 => exact (h1.shiftable (lag_step hf h0 hr hl).2).pre

theorem final_over {B n : Nat} {e l eF : Scanner} {i iF : In} (h : Chain T f B n e i eF iF) (hE : ScanEnded T [] eF iF)
    (hF : ∀ k ∈ eF.keys, k.possible = false) (hl : Lags eF.tokens e l) : Over l i ∧ l.flowLevel = eF.flowLevel := by
  cases h with
  | nil =>
    have hage : e.age = e := by
      unfold Scanner.age
      rw [dropStale_id hF]
    have : l = e.shift e.tokens := by
      rcases hl with ⟨_, h⟩ | ⟨_, h⟩
      · exact h
      · rw [h, hage]
    subst this
    have hr := hE.rest
    refine ⟨⟨⟨hr.started, hr.keys, hr.nested, hr.nul, hr.has, hr.closed, hr.col⟩, by simp [Scanner.shift], ?_⟩, rfl⟩
    intro k hk hp
    rw [hF k hk] at hp; cases hp
  | cons h0 _ _ _ =>
    exfalso
    obtain ⟨q, hq, _⟩ := hl.pre
    obtain ⟨A0, B, x, m, u, r, k1, _, _, _, _, hx, _⟩ := hE.final.parts
    rcases h0 with h0 | h0
    · have : e.tokens = [] := by rw [h0.eq]
      rw [this] at hq
      rw [show eF.tokens = [] by simp at hq; exact hq.1] at k1
      simp at k1
    · refine running_no_end (s := e) h0.base.toks x ?_ (by rw [hx])
      have k1 : eF.tokens = A0 ++ B ++ [x] := k1
      show x ∈ e.tokens
      rw [hq, k1]; simp

theorem feeds_det {σ : Type} {S : TokSrc σ} {x y y' : σ} {d d' : List Token} (h : Feeds S x d y) (h' : Feeds S x d' y') (hl : d.length = d'.length) :
    d = d' ∧ y = y' := by
  induction h generalizing d' y' with
  | nil => cases h' with
    | nil => exact ⟨rfl, rfl⟩
    | snoc _ _ => simp at hl
  | snoc h1 h2 ih => cases h' with
    | nil => simp at hl
    | snoc g1 g2 =>
      obtain ⟨rfl, rfl⟩ := ih g1 (by simpa using hl)
      rw [h2] at g2; cases g2
      exact ⟨rfl, rfl⟩

theorem feeds_split {σ : Type} {S : TokSrc σ} {x y : σ} {d : List Token} (h : Feeds S x d y) {n : Nat} (hn : n ≤ d.length) :
    ∃ d1 d2 z, d = d1 ++ d2 ∧ d1.length = n ∧ Feeds S x d1 z ∧ Feeds S z d2 y := by
  induction h with
  | nil => exact ⟨[], [], x, rfl, by simp at hn; exact hn.symm, .nil _, .nil _⟩
  | @snoc ts z t w h1 h2 ih =>
    by_cases h : n = ts.length + 1
    · exact ⟨ts ++ [t], [], w, by simp, by simp [h], .snoc h1 h2, .nil _⟩
    · obtain ⟨d1, d2, v, g1, g2, g3, g4⟩ := ih (by simp at hn; omega)
      exact ⟨d1, d2 ++ [t], v, by simp [g1], g2, g3, .snoc g4 h2⟩

/-- Behind the end the depth is 0. -/
theorem over_feeds {d : List Token} {x y : Scanner × In} (hf : 2 ≤ f) (h : Feeds (textSrc f) x d y) (ho : Over x.1 x.2) (hb : x.2.bad = none)
    (hfl : x.1.flowLevel = 0) : Over y.1 y.2 ∧ y.2.bad = none ∧ y.1.flowLevel = 0 := by
  induction h with
  | nil => exact ⟨ho, hb, hfl⟩
  | @snoc ts z t w h1 h2 ih =>
    obtain ⟨g1, g2, g3⟩ := ih
    have hs := safe_nextOver hf (by rw [g2]; exact noBad) g1
    unfold pw at hs
    have hn : (textSrc f).next z = match (nextToken f z.1).run z.2 with
      | .error e => .error e
      | .ok ((t, s), i) => .ok (t, (s, i)) := rfl
    rw [hn] at h2
    cases hr : (nextToken f z.1).run z.2 with
    | error er => rw [hr] at h2; cases h2
    | ok r =>
      obtain ⟨⟨t', s'⟩, i'⟩ := r
      rw [hr] at hs h2
      cases h2
      exact ⟨hs.2.1, by rw [hs.2.2.1]; exact g2, by rw [hs.2.2.2.1]; exact g3⟩

theorem nested_ge {a : Int} {l : List Int} (h : NestedColumns (a :: l)) : -1 ≤ a := by
  induction l generalizing a with
  | nil => have : a = -1 := h; omega
  | cons b l ih => have := ih h.2; have := h.1; omega

/-- An eager run over the whole text: its tokens are delivered, and the depth stays below its bound. -/
theorem eager_feeds {B n : Nat} {enc : Enc} {eF : Scanner} {iF : In} (hf : T.length + 2 < f)
    (h : Chain T f B n { enc := enc } { cs := T } eF iF) (hE : ScanEnded T [] eF iF) (hF : ∀ k ∈ eF.keys, k.possible = false)
    (hfl : eF.flowLevel = 0) (hbad : iF.bad = none) :
    (∃ y, Feeds (textSrc f) ({ enc := enc }, { cs := T }) eF.tokens y) ∧
      ∀ toks y, Feeds (textSrc f) ({ enc := enc }, { cs := T }) toks y → (textSrc f).depth y ≤ B := by
  have key := fun k (hk : k ≤ eF.tokens.length) => feeds_lag (k := k) hf h rfl rfl rfl hF hk
  have full : ∃ l, Feeds (textSrc f) ({ enc := enc }, { cs := T }) eF.tokens (l, iF) ∧ Over l iF ∧ l.flowLevel = 0 := by
    obtain ⟨d, n', e', l, i', h1, h2, h3, h4, _⟩ := key _ (Nat.le_refl _)
    obtain ⟨q, hq⟩ := h3.final hf h2
    have hd : d = eF.tokens := by
      have := congrArg List.length hq
      rw [List.length_append] at this
      have : q = [] := List.length_eq_zero_iff.mp (by omega)
      rw [hq, this]; simp
    subst hd
    obtain ⟨g1, g2⟩ := final_over h2 hE hF h3
    have : i' = iF := by
      cases h2 with
      | nil => rfl
      | cons h0 a b c => 
        exfalso
        obtain ⟨q, hq, _⟩ := h3.pre
        obtain ⟨A0, B, x, m, u, r, k1, _, _, _, _, hx, _⟩ := hE.final.parts
        rcases h0 with h0 | h0
        · have : e'.tokens = [] := by rw [h0.eq]
          rw [this] at hq
          rw [show eF.tokens = [] by simp at hq; exact hq.1] at k1
          simp at k1
        · refine running_no_end (s := e') h0.base.toks x ?_ (by rw [hx])
          have k1 : eF.tokens = A0 ++ B ++ [x] := k1
          show x ∈ e'.tokens
          rw [hq, k1]; simp
    subst this
    exact ⟨l, h4, g1, by rw [g2]; exact hfl⟩
  obtain ⟨lF, hF1, hF2, hF3⟩ := full
  refine ⟨⟨_, hF1⟩, fun toks y hy => ?_⟩
  by_cases hlen : toks.length ≤ eF.tokens.length
  · obtain ⟨d, n', e', l, i', h1, h2, h3, h4, h5⟩ := key _ hlen
    obtain ⟨_, rfl⟩ := feeds_det hy h4 h1.symm
    exact h5
  · obtain ⟨d1, d2, z, _, g2, g3, g4⟩ := feeds_split hy (n := eF.tokens.length) (by omega)
    obtain ⟨_, rfl⟩ := feeds_det g3 hF1 g2
    obtain ⟨o1, _, o3⟩ := over_feeds (by omega) g4 hF2 hbad hF3
    have hcl := o1.rest.closed o3
    have hne := o1.rest.nested
    show y.1.indents.length + y.1.flowLevel ≤ B
    have : y.1.indents = [] := by
      cases hi : y.1.indents with
      | nil => rfl
      | cons a b =>
        rw [hi] at hne
        obtain ⟨h1, h2⟩ := hne
        have : -1 ≤ a := nested_ge h2
        omega
    rw [this, o3]
    simp

end

end LibYaml
