import Verif.Proofs.ScannerRun

/-! After STREAM-END was delivered the scanner delivers STREAM-END again, without fault. -/

namespace LibYaml

open Spec

/-- Faults are excluded: every failure is an error reported to the caller. -/
local notation "safe" m:max Q:max s:max i:max => pw m Q Fail.reported s i

/-- STREAM-END has been delivered. -/
structure Over (s : Scanner) (i : In) : Prop where
  rest : Halted s i
  empty : s.tokens = []
  stale : ∀ k ∈ s.keys, k.possible = true → k.mark.line < s.mark.line

section
variable {σ α : Type} {m : Mark} {i : In} {r : Text}

theorem safe_cacheNul {n : Nat} {Q : Unit → Mark → In → Prop} (hb : BadOk i.bad) (hcs : i.cs = 0 :: r) (hi : 1 ≤ i.avail) (hn : n ≤ maxLookahead)
    (hQ : ∀ i', i'.cs = 0 :: r → 1 ≤ i'.avail → i'.bad = i.bad → Q () m i') : safe (cacheC n) Q m i := by
  unfold pw cacheC
  simp only [Prog.run]
  unfold In.cache
  rw [if_neg (by omega)]
  by_cases h1 : n ≤ i.avail
  · rw [if_pos h1]; exact hQ i hcs hi rfl
  rw [if_neg h1]
  by_cases h2 : n ≤ i.cs.length
  · rw [if_pos h2]; exact hQ _ hcs (by show 1 ≤ n; omega) rfl
  rw [if_neg h2]
  cases h3 : i.bad with
  | none => exact hQ _ hcs (by show 1 ≤ i.cs.length; rw [hcs]; simp) h3.symm
  | some er => exact hb.reported h3

theorem safe_peekNul {Q : Nat → Mark → In → Prop} (hcs : i.cs = 0 :: r) (hi : 1 ≤ i.avail) (hQ : Q 0 m i) : safe (peekC 0) Q m i := by
  unfold pw peekC
  simp only [Prog.run]
  unfold In.look
  rw [if_pos ⟨by omega, by simp⟩, hcs]
  exact hQ

theorem safe_toNextNul {flow a : Bool} {f n : Nat} {Q : Bool → Mark → In → Prop} (hb : BadOk i.bad) (hcs : i.cs = 0 :: r) (hi : 1 ≤ i.avail)
    (hQ : ∀ i', i'.cs = 0 :: r → 1 ≤ i'.avail → i'.bad = i.bad → Q a m i') : safe (scanToNext flow (f + 1) (n + 1) a) Q m i := by
  unfold scanToNext
  rw [pw_bind]
  refine safe_cacheNul hb hcs hi (by decide) fun i1 c1 a1 b1 => ?_
  have hbom : ∀ {Q : Unit → Mark → In → Prop}, Q () m i1 → safe skipBom Q m i1 := by
    intro Q h
    unfold skipBom
    rw [pw_bind, pw_get]
    refine pw_ite (fun _ => ?_) (fun _ => h)
    rw [pw_bind]
    refine safe_peekNul c1 a1 ?_
    refine pw_ite (fun h0 => by cases h0) (fun _ => h)
  rw [pw_bind]
  refine hbom ?_
  rw [pw_bind]
  refine safe_cacheNul (by rw [b1]; exact hb) c1 a1 (by decide) fun i2 c2 a2 b2 => ?_
  rw [pw_bind]
  unfold skipWhile
  rw [pw_bind]
  refine safe_peekNul c2 a2 ?_
  refine pw_ite (fun h0 => by simp [isSpace, isTab] at h0) (fun _ => ?_)
  rw [pw_pure, pw_bind]
  unfold skipComment
  rw [pw_bind]
  refine safe_peekNul c2 a2 ?_
  refine pw_ite (fun h0 => by cases h0) (fun _ => ?_)
  rw [pw_pure, pw_bind]
  refine safe_peekNul c2 a2 ?_
  refine pw_ite (fun h0 => by cases h0) (fun _ => ?_)
  exact hQ i2 c2 a2 (by rw [b2, b1])

theorem safe_dispatchNul {flow : Bool} {Q : Kind → Mark → In → Prop} (hcs : i.cs = 0 :: r) (hi : 1 ≤ i.avail) (hQ : Q .streamEnd m i) :
    safe (dispatch flow) Q m i := by
  unfold dispatch
  rw [pw_bind]
  refine safe_peekNul hcs hi ?_
  rw [pw_bind, pw_get]
  refine pw_ite (fun _ => hQ) (fun h0 => absurd rfl h0)

end

variable {s : Scanner} {i : In}

theorem unroll_id {column : Int} (h : s.flowLevel = 0 → s.indent ≤ column) : s.unrollIndent column = .ok s := by
  unfold Scanner.unrollIndent
  by_cases hf : s.flowLevel = 0
  · rw [if_neg (by simp [hf])]
    have := h hf
    cases hi : s.indents with
    | nil => unfold unrollLoop; rw [if_neg (by omega), ← hi]
    | cons x xs => unfold unrollLoop; rw [if_neg (by omega), ← hi]
  · rw [if_pos hf]

theorem removeKey_id {k : SimpleKey} {ks : List SimpleKey} (hk : s.keys = k :: ks) (hp : k.possible = false) : s.removeKey = .ok s := by
  unfold Scanner.removeKey
  rw [hk]
  simp only
  rw [if_neg (by rw [hp]; simp)]
  have : ({ k with possible := false } : SimpleKey) = k := by rw [← hp]
  rw [this, ← hk]

theorem staleKeys_reported {m : Mark} {ks : List SimpleKey} {er : Fail} (h : staleKeys m ks = .error er) : er.reported := by
  induction ks with
  | nil => cases h
  | cons k ks ih =>
    simp only [staleKeys] at h
    cases hr : staleKeys m ks with
    | error er' => rw [hr] at h; cases h; exact ih hr
    | ok ks1 =>
      rw [hr] at h
      simp only at h
      by_cases hs : k.stale m = true
      · rw [if_pos hs] at h
        by_cases hq : k.required = true
        · rw [if_pos hq] at h; cases h; exact trivial
        · rw [if_neg hq] at h; cases h
      · rw [if_neg hs] at h; cases h

/-- `yaml_parser_stale_simple_keys` where nothing is known about the marks of the keys. -/
theorem sm_staleOver {Q : Unit → Scanner → In → Prop} (hQ : (∀ k ∈ s.keys, k.stale s.mark = true → k.required = false) →
      Q () { s with keys := s.keys.map (dropStale s.mark) } i) : safe (act Scanner.stale) Q s i := by
  unfold Scanner.stale
  refine pw_act (fun s' hs => ?_) (fun er hs => ?_)
  · cases hr : staleKeys s.mark s.keys with
    | error er => rw [hr] at hs; cases hs
    | ok ks =>
      rw [hr] at hs; cases hs
      obtain ⟨rfl, h2⟩ := staleKeys_ok hr
      exact hQ h2
  · cases hr : staleKeys s.mark s.keys with
    | error er => rw [hr] at hs; cases hs; exact staleKeys_reported hr
    | ok ks => rw [hr] at hs; cases hs

/-- The token STREAM-END where everything is closed. -/
theorem safe_streamEndOver {Q : Unit → Scanner → In → Prop} (hcl : s.flowLevel = 0 → s.indent ≤ -1) (hne : s.keys ≠ [])
    (hnone : ∀ k ∈ s.keys, k.possible = false) (hcol : s.mark.column = 0)
    (hQ : Q () { s with allowed := false, tokens := s.tokens ++ [{ data := .streamEnd, start := s.mark, stop := s.mark }] } i) :
    safe fetchStreamEnd Q s i := by
  unfold fetchStreamEnd resetAll
  rw [pw_bind]
  refine pw_act_ok (s' := s) (by rw [show forceLine s.mark = s.mark from if_pos hcol]) ?_
  rw [pw_bind, pw_bind]
  refine pw_act_ok (unroll_id hcl) ?_
  rw [pw_bind]
  cases hk : s.keys with
  | nil => exact absurd hk hne
  | cons k ks =>
    refine pw_act_ok (removeKey_id hk (hnone k (by rw [hk]; simp))) ?_
    refine pw_act_ok rfl ?_
    exact pw_act_ok rfl hQ

theorem safe_fetchOver {f : Nat} {Q : Unit → Scanner → In → Prop} (hb : BadOk i.bad) (h : Over s i)
    (hQ : ∀ s' i' t, Halted s' i' → s'.tokens = [t] → t.data = .streamEnd → (∀ k ∈ s'.keys, k.possible = false) → i'.bad = i.bad →
      s'.flowLevel = s.flowLevel → s'.indents = s.indents → Q () s' i') :
    safe (fetchNext (f + 1)) Q s i := by
  obtain ⟨r, hr⟩ := h.rest.nul
  unfold fetchNext
  rw [pw_bind]
  refine pw_lex (safe_cacheNul hb hr h.rest.has (by decide) fun i1 c1 a1 b1 => ?_)
  rw [pw_bind, pw_get, if_pos h.rest.started, pw_bind]
  refine pw_lex (safe_toNextNul (by rw [b1]; exact hb) c1 a1 fun i2 c2 a2 b2 => ?_)
  rw [pw_bind]
  refine pw_act_ok rfl ?_
  rw [pw_bind]
  refine sm_staleOver fun _ => ?_
  have hnone : ∀ k ∈ s.keys.map (dropStale s.mark), k.possible = false := by
    intro k hk
    cases hp : k.possible with
    | false => rfl
    | true =>
      obtain ⟨h1, h2⟩ := mem_dropStale hk hp
      have := h.stale k h1 hp
      have := (stale_false h2 hp).1
      omega
  rw [pw_bind]
  refine pw_act_ok (unroll_id fun hf => ?_) ?_
  · have := h.rest.closed hf
    show s.indent ≤ ((s.mark.column : Nat) : Int)
    omega
  rw [pw_bind]
  refine pw_lex (safe_cacheNul (by rw [b2, b1]; exact hb) c2 a2 (by decide) fun i3 c3 a3 b3 => ?_)
  rw [pw_bind]
  refine pw_lex (safe_dispatchNul c3 a3 ?_)
  unfold fetchKind
  refine safe_streamEndOver h.rest.closed (by simpa using h.rest.keys) hnone h.rest.col ?_
  refine hQ _ _ { data := .streamEnd, start := s.mark, stop := s.mark } ⟨h.rest.started, by simpa using h.rest.keys, h.rest.nested, ⟨r, c3⟩, a3, h.rest.closed, h.rest.col⟩ ?_ rfl hnone (by rw [b3, b2, b1]) rfl rfl
  show s.tokens ++ _ = _
  rw [h.empty]; rfl

theorem dropStale_id {ks : List SimpleKey} {m : Mark} (h : ∀ k ∈ ks, k.possible = false) : ks.map (dropStale m) = ks := by
  induction ks with
  | nil => rfl
  | cons k ks ih =>
    rw [List.map_cons, ih fun x hx => h x (by simp [hx])]
    have : dropStale m k = k := if_neg (by unfold SimpleKey.stale; rw [h k (by simp)]; simp)
    rw [this]

/-- One more call behind the end. -/
theorem safe_nextOver {f : Nat} (hf : 2 ≤ f) (hb : BadOk i.bad) (h : Over s i) :
    safe (nextToken f) (fun t s' i' => t.data = .streamEnd ∧ Over s' i' ∧ i'.bad = i.bad ∧ s'.flowLevel = s.flowLevel ∧ s'.indents = s.indents) s i := by
  obtain ⟨n, rfl⟩ : ∃ n, f = n + 2 := ⟨f - 2, by omega⟩
  unfold nextToken
  rw [pw_bind]
  unfold fetchMore
  rw [pw_bind, pw_get, if_pos (by rw [h.empty]; rfl), pw_bind]
  refine safe_fetchOver hb h fun s' i' t h1 h2 h3 h4 h5 h6 h7 => ?_
  unfold fetchMore
  rw [pw_bind, pw_get, if_neg (by rw [h2]; simp), pw_bind]
  refine sm_staleOver fun _ => ?_
  rw [dropStale_id h4, pw_bind, pw_get]
  refine pw_ite (fun hp => ?_) (fun _ => ?_)
  · exfalso
    unfold Scanner.headPending at hp
    obtain ⟨k, hk, hk'⟩ := List.any_eq_true.mp hp
    rw [h4 k hk] at hk'
    cases hk'
  · rw [pw_pure]
    unfold pw
    simp only [h2, Prog.run]
    refine ⟨h3, ⟨⟨h1.started, h1.keys, h1.nested, h1.nul, h1.has, h1.closed, h1.col⟩, rfl, fun k hk hp => ?_⟩, h5, h6, h7⟩
    rw [h4 k hk] at hp; cases hp

end LibYaml
