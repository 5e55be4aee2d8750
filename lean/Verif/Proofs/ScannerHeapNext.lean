import Verif.Proofs.ScannerHeapFetch

/-!
# The fetchers of the scanner on the heap: helper lemmas
-/

namespace LibYaml

open Spec

section
variable {α α' β β' : Type} {o : Oracle} {A : Prop} {base : Nat → Option Obj} {s s' : Scanner} {c d keep : Blocks}

theorem rat_null {V : RV} {regs : Reg → HStr} {b : Blocks} (h : RAt V regs b) (hn : ∀ r, V.get r = .null) : b = [] := by
  obtain ⟨b1, b2, b3, b4, k1, k2, k3, k4, rfl⟩ := h
  rw [show V.str = .null from hn .str] at k1
  rw [show V.lead = .null from hn .lead] at k2
  rw [show V.trail = .null from hn .trail] at k3
  rw [show V.white = .null from hn .white] at k4
  rw [k1.2, k2.2, k3.2, k4.2]
  rfl

/-- A function that scans one token. -/
theorem fr_lexTok {m : HL β} {x : Lex α} {R : β → α → Blocks → Prop}
    (hm : ∀ c, LRel o A base [] nullV c c m x (fun v a W d => W = nullV ∧ ∃ y, R v a y ∧ d.Perm (y ++ c))) :
    FRel o A base s c c (hlex m) (lex x) (fun v a j d => (∃ mk, j = { s with mark := mk }) ∧ ∃ y, R v a y ∧ d.Perm (y ++ c)) := by
  rintro hs t inp b h ⟨rfl, h1, h2, vs, b1, b2, b3, b4, b5, k⟩ e sane
  have hrun : ((lex x t).runR o inp) = match (x t.mark).runR o inp with | .error e => .error e | .ok ((a, m), i) => .ok ((a, { t with mark := m }), i) := by
    show ((x t.mark).bind _).runR o inp = _
    rw [runR_bind]
    rcases (x t.mark).runR o inp with e | ⟨⟨a, m⟩, i⟩ <;> rfl
  have sane' : Sane ((x t.mark).runR o inp) := by
    intro er he
    rw [hrun, he] at sane
    exact sane er rfl
  have hl : LRep [] nullV { mark := hs.mark, inp := hs.inp } t.mark inp [] :=
    ⟨h2.mark, h1, ⟨[], [], [], [], ⟨rfl, rfl⟩, ⟨rfl, rfl⟩, ⟨rfl, rfl⟩, ⟨rfl, rfl⟩, rfl⟩, fun r _ => nullV_get r⟩
  obtain ⟨⟨r, l⟩, h', hout, post⟩ := hw_out (hm (b ++ c) { mark := hs.mark, inp := hs.inp } t.mark inp [] h hl e sane')
  unfold hw hlex
  simp only [hout]
  rcases r with er | v
  · obtain ⟨⟨j, t', inp', b', hj, e'⟩, hk⟩ := post
    have := rat_null hj.2.2.1 (fun r => hj.2.2.2 r (by simp))
    subst this
    refine ⟨⟨{ t with mark := l.mark }, _, _, b, ⟨rfl, rfl, ⟨h2.1, rfl, h2.3, h2.4, h2.5, h2.6, h2.7⟩, vs, b1, b2, b3, b4, b5, k⟩, e'⟩, ?_⟩
    rcases hk with ⟨f, hf, he⟩ | ⟨he, hA⟩
    · exact .inl ⟨f, by rw [hrun, hf], he⟩
    · exact .inr ⟨he, fun a => (hA a).elim⟩
  · obtain ⟨a, t', inp', j, d, b', hk, hj, e', rfl, y, hR, hp⟩ := post
    have := rat_null hj.2.2.1 (fun r => hj.2.2.2 r (by simp))
    subst this
    obtain ⟨j1, j2, _⟩ := hj
    refine ⟨a, { t with mark := t' }, inp', _, y ++ c, b, by rw [hrun, hk], ⟨rfl, j2, ⟨h2.1, j1, h2.3, h2.4, h2.5, h2.6, h2.7⟩, vs, b1, b2, b3, b4, b5, k⟩,
      e'.perm (by blocks_by hp), ⟨t', rfl⟩, y, hR, List.Perm.refl _⟩

/-- A part of the scanner without memory. -/
theorem fr_in {x : Lex α} {k : α → HF β'} {y : α → SM α'} {Q : β' → α' → Scanner → Blocks → Prop}
    (h : ∀ a mk, FRel o A base { s with mark := mk } c c (k a) (y a) Q) : FRel o A base s c c (hlex (hin o x) >>= k) (lex x >>= y) Q := by
  refine xr_bind (fr_lexTok (R := fun v a y => v = a ∧ y = []) fun c => xr_post lr_hin ?_) ?_
  · rintro v a _ _ ⟨rfl, rfl, rfl⟩
    exact ⟨rfl, [], ⟨rfl, rfl⟩, List.Perm.refl _⟩
  · rintro v a _ d ⟨⟨mk, rfl⟩, _, ⟨rfl, rfl⟩, hp⟩
    exact xr_perm hp (h v mk)

/-! ### Simple keys -/

theorem staleKeys_snoc {m : Mark} {up : List SimpleKey} {k : SimpleKey} : staleKeys m (up ++ [k]) =
    if k.stale m then
      if k.required then .error (keyError k m) else (staleKeys m up).map fun u => u ++ [{ k with possible := false }]
    else (staleKeys m up).map fun u => u ++ [k] := by
  induction up with
  | nil =>
    simp only [List.nil_append, staleKeys]
    split
    · split <;> rfl
    · rfl
  | cons a up ih =>
    rw [List.cons_append]
    unfold staleKeys
    rw [ih]
    by_cases h1 : k.stale m = true <;> by_cases h2 : k.required = true <;> by_cases h3 : a.stale m = true <;> by_cases h4 : a.required = true <;>
      cases staleKeys m up <;> simp [h1, h2, h3, h4, Except.map]

theorem fr_staleLoop {up down : List SimpleKey} {n i : Nat} (hn : n = up.length) (hi : i = down.length) (hk : s.keys = up ++ down)
    {g : Scanner → Except Fail Scanner} (hg : g s = (staleKeys s.mark up).map fun u => { s with keys := u ++ down }) :
    FAct o A base s c (fStaleLoop n i) g := by
  induction n generalizing up down i s g with
  | zero =>
    have := List.eq_nil_of_length_eq_zero hn.symm
    subst this
    refine fr_nop (hg.trans ?_)
    simp only [staleKeys, Except.map]
    rw [← hk]
  | succ n ih =>
    have hne : up ≠ [] := by rintro rfl; cases hn
    obtain ⟨up, k, rfl⟩ : ∃ u k, up = u ++ [k] := ⟨_, _, (List.dropLast_append_getLast hne).symm⟩
    have hn' : n = up.length := by simpa using hn
    rw [staleKeys_snoc] at hg
    have hk' : s.keys = up ++ k :: down := by rw [hk]; simp
    rintro hs t inp b h ⟨rfl, h1, h2, vs, b1, b2, b3, b4, b5, k1, k2, k3, k4, k5, k6⟩ e sane
    unfold fStaleLoop
    rw [hw_bind]
    rw [hk'] at k4
    refine hw_stk_get k4 hi e ?_ ?_
    · intro y hy
      refine List.mem_append_left _ (k6.mem_iff.mpr ?_)
      simp [hy]
    · rw [h2.mark, hw_ite]
      by_cases hst : k.stale t.mark = true
      · rw [if_pos hst] at hg ⊢
        rw [hw_ite]
        by_cases hrq : k.required = true
        · rw [if_pos hrq] at hg ⊢
          rw [hw_pure]
          refine ⟨⟨_, _, _, b, ⟨rfl, h1, h2, vs, b1, b2, b3, b4, b5, k1, k2, k3, by rw [hk']; exact k4, k5, k6⟩, e⟩, .inl ⟨keyError k t.mark, ?_, rfl⟩⟩
          unfold act
          rw [hg]
          rfl
        · rw [if_neg hrq] at hg ⊢
          rw [hw_bind]
          refine hw_stk_set (w := { k with possible := false }) (bs' := b1 ++ (b2 ++ (b3 ++ (b5 ++ c)))) k4 hi e (by blocks_by k6) fun h' x' j1 e' => ?_
          have hact := ih (s := { t with keys := up ++ { k with possible := false } :: down }) (up := up) (down := { k with possible := false } :: down)
            (i := i + 1) (g := fun _ => g t) hn' (by simp [hi]) rfl ?_
          · have hrep : FRep { t with keys := up ++ { k with possible := false } :: down } hs { t with keys := up ++ { k with possible := false } :: down }
                inp (b1 ++ (b2 ++ (b3 ++ (x' ++ b5)))) :=
              ⟨rfl, h1, ⟨h2.1, h2.2, h2.3, h2.4, h2.5, h2.6, h2.7⟩, vs, b1, b2, b3, x', b5, k1, k2, k3, j1, k5, List.Perm.refl _⟩
            have hrun : (act g t).runR o inp = (act (fun _ => g t) { t with keys := up ++ { k with possible := false } :: down }).runR o inp := rfl
            rw [hrun] at sane ⊢
            exact hact hs _ inp _ h' hrep (e'.perm (by blocks)) sane
          · rw [hg]
            cases staleKeys t.mark up with
            | error e => rfl
            | ok u => simp [Except.map]
      · rw [if_neg hst] at hg ⊢
        exact ih (up := up) (down := k :: down) (i := i + 1) hn' (by simp [hi]) hk' (by
          rw [hg]
          cases staleKeys t.mark up with
          | error e => rfl
          | ok u => simp [Except.map]) hs t inp b h ⟨rfl, h1, h2, vs, b1, b2, b3, b4, b5, k1, k2, k3, by rw [hk']; exact k4, k5, k6⟩ e sane

theorem FRep.keysTop {x : HScan} {t : Scanner} {inp : RS} {b : Blocks} (h : FRep s x t inp b) : x.keys.top = s.keys.length := by
  obtain ⟨_, _, _, vs, b1, b2, b3, b4, b5, k1, k2, k3, ⟨a, n, j, _⟩, _⟩ := h
  rw [j]

theorem FRep.indentsTop {x : HScan} {t : Scanner} {inp : RS} {b : Blocks} (h : FRep s x t inp b) : x.indents.top = s.indents.length := by
  obtain ⟨_, _, _, vs, b1, b2, b3, b4, b5, k1, k2, ⟨a, n, j, _⟩, _⟩ := h
  rw [j]

theorem FRep.queued {x : HScan} {t : Scanner} {inp : RS} {b : Blocks} (h : FRep s x t inp b) : x.tokens.tail = x.tokens.head + s.tokens.length := by
  obtain ⟨_, _, _, vs, b1, b2, b3, b4, b5, ⟨a, i, n, j, _⟩, k2, _⟩ := h
  rw [j, ← k2.length]

theorem fr_stale : FAct o A base s c fStale Scanner.stale := by
  rintro hs t inp b h hr e sane
  unfold fStale
  rw [hr.keysTop]
  refine fr_staleLoop (up := s.keys) (down := []) (g := Scanner.stale) rfl rfl (by simp) ?_ hs t inp b h hr e sane
  unfold Scanner.stale
  cases staleKeys s.mark s.keys with
  | error e => rfl
  | ok u => simp [Except.map]

theorem fr_removeKey : FAct o A base s c fRemoveKey Scanner.removeKey := by
  cases hk : s.keys with
  | nil => exact fr_ub (by unfold Scanner.removeKey; rw [hk])
  | cons k ks =>
    unfold fRemoveKey
    refine fr_topKey hk (fr_get (v := s.mark) (fun _ _ _ h => h.2.2.1.mark) ?_)
    by_cases hp : (k.possible && k.required) = true
    · rw [if_pos hp]
      exact fr_err (by unfold Scanner.removeKey; rw [hk]; simp only; rw [if_pos hp])
    · rw [if_neg hp]
      exact fr_setKey hk (by unfold Scanner.removeKey; rw [hk]; simp only; rw [if_neg hp])

theorem fr_saveKey : FAct o A base s c fSaveKey Scanner.saveKey := by
  unfold fSaveKey
  refine fr_get (v := { possible := true, required := s.flowLevel == 0 && s.indent == s.mark.column, tokenNumber := s.tokensParsed + s.tokens.length, mark := s.mark }) ?_ ?_
  · intro x inp b h
    have hq := h.queued
    obtain ⟨_, _, h2, _⟩ := h
    rw [h2.flow, h2.indent, h2.mark, h2.parsed]
    congr 2
    omega
  refine fr_get (v := s.allowed) (fun _ _ _ h => h.2.2.1.allowed) ?_
  cases ha : s.allowed with
  | false =>
    rw [if_neg (by simp)]
    exact fr_nop (by unfold Scanner.saveKey; rw [ha, if_neg (by simp)])
  | true =>
    rw [if_pos rfl]
    cases hk : s.keys with
    | nil => exact fr_ub (by unfold Scanner.saveKey Scanner.removeKey; rw [ha, if_pos rfl, hk])
    | cons k ks =>
      generalize hw : ({ possible := true, required := s.flowLevel == 0 && s.indent == s.mark.column, tokenNumber := s.tokensParsed + s.tokens.length, mark := s.mark } : SimpleKey) = w
      refine fr_seq fr_removeKey (g2 := fun s' => .ok { s' with keys := w :: ks }) ?_ ?_
      · intro s' hs
        unfold Scanner.removeKey at hs
        rw [hk] at hs
        simp only at hs
        split at hs
        · cases hs
        · cases hs
          exact fr_setKey rfl rfl
      · unfold Scanner.saveKey
        rw [ha, if_pos rfl]
        unfold Scanner.removeKey
        rw [hk]
        by_cases hp : (k.possible && k.required) = true
        · simp only [if_pos hp]
        · simp only [if_neg hp, ← hw]

theorem fr_increaseFlow : FAct o A base s c fIncreaseFlow Scanner.increaseFlow := by
  unfold fIncreaseFlow
  refine fr_seq (fr_pushKey rfl) (g1 := fun s => .ok { s with keys := {} :: s.keys })
    (g2 := fun s => if s.flowLevel = maxInt then .error .memory else .ok { s with flowLevel := s.flowLevel + 1 }) ?_ ?_
  · rintro s' hs
    refine fr_get (v := s'.flowLevel) (fun _ _ _ h => h.2.2.1.flow) ?_
    by_cases hl : s'.flowLevel = maxInt
    · rw [if_pos hl]
      exact fr_err (if_pos hl)
    · rw [if_neg hl]
      exact fr_mod (if_neg hl) (fun _ => ⟨rfl, rfl, rfl, rfl, rfl⟩) ⟨rfl, rfl, rfl⟩ fun _ h =>
        ⟨h.enc, h.mark, h.started, by rw [← h.flow], h.parsed, h.indent, h.allowed⟩
  · unfold Scanner.increaseFlow
    rfl

theorem fr_rollIndent {column : Nat} {number : Option Nat} {data : TokData} {mark : Mark} (hd : data.isPlain = true) :
    FAct o A base s c (fRollIndent column number data mark) (Scanner.rollIndent column number data mark) := by
  unfold fRollIndent
  refine fr_get (v := s.flowLevel) (fun _ _ _ h => h.2.2.1.flow) ?_
  by_cases hf : s.flowLevel ≠ 0
  · rw [if_pos hf]
    exact fr_nop (by unfold Scanner.rollIndent; rw [if_pos hf])
  · rw [if_neg hf]
    refine fr_get (v := s.indent) (fun _ _ _ h => h.2.2.1.indent) ?_
    by_cases hi : s.indent < column
    · rw [if_pos hi]
      refine fr_seq (fr_pushIndent rfl) (g1 := fun s => .ok { s with indents := s.indent :: s.indents }) (g2 := fun s =>
        if column > maxInt then .error .memory
        else match number with
          | none => ({ s with indent := column } : Scanner).enqueue { data := data, start := mark, stop := mark }
          | some n => ({ s with indent := column } : Scanner).insert n { data := data, start := mark, stop := mark }) ?_ ?_
      · intro s' hs
        by_cases hc : column > maxInt
        · rw [if_pos hc]
          exact fr_err (if_pos hc)
        · rw [if_neg hc]
          refine fr_seq (g1 := fun s => .ok { s with indent := column }) (g2 := fun s => match number with
            | none => s.enqueue { data := data, start := mark, stop := mark }
            | some n => s.insert n { data := data, start := mark, stop := mark })
            (fr_mod rfl (fun _ => ⟨rfl, rfl, rfl, rfl, rfl⟩) ⟨rfl, rfl, rfl⟩ fun _ h => ⟨h.enc, h.mark, h.started, h.flow, h.parsed, rfl, h.allowed⟩) ?_ ?_
          · intro s2 hs2
            cases number with
            | none => exact fr_enqueuePlain hd rfl
            | some n => exact fr_insert hd rfl
          · rw [if_neg hc]
      · unfold Scanner.rollIndent
        rw [if_neg hf, if_pos hi]
        cases number <;> rfl
    · rw [if_neg hi]
      exact fr_nop (by unfold Scanner.rollIndent; rw [if_neg hf, if_neg hi])

theorem fr_unrollLoop {column : Int} {n : Nat} (hn : s.indents.length < n) {g : Scanner → Except Fail Scanner}
    (hg : g s = match unrollLoop column s.mark s.indent s.indents s.tokens with
      | .error e => .error e
      | .ok (indent, indents, tokens) => .ok { s with indent := indent, indents := indents, tokens := tokens }) :
    FAct o A base s c (fUnrollLoop column n) g := by
  induction n generalizing s g with
  | zero => omega
  | succ n ih =>
    unfold fUnrollLoop
    refine fr_get (v := s.indent) (fun _ _ _ h => h.2.2.1.indent) ?_
    by_cases hi : s.indent > column
    · rw [if_pos hi]
      cases hs : s.indents with
      | nil => exact fr_ub (by rw [hg, hs]; unfold unrollLoop; rw [if_pos hi])
      | cons i is =>
        refine fr_get (v := s.mark) (fun _ _ _ h => h.2.2.1.mark) ?_
        refine fr_seq (g1 := Scanner.enqueue { data := .blockEnd, start := s.mark, stop := s.mark })
          (g2 := fun _ => g s) (fr_enqueuePlain rfl rfl) ?_ rfl
        intro s1 h1
        cases h1
        refine fr_seq (g1 := fun s' => .ok { s' with indent := i, indents := is }) (g2 := fun _ => g s) (fr_popIndent (s := { s with tokens := s.tokens ++ [_] }) hs rfl) ?_ rfl
        intro s2 h2
        cases h2
        refine ih (by rw [hs] at hn; simpa using hn) ?_
        rw [hg, hs]
        conv => lhs; unfold unrollLoop
        rw [if_pos hi]
    · rw [if_neg hi]
      refine fr_nop ?_
      rw [hg]
      unfold unrollLoop
      cases hs : s.indents with
      | nil => simp only [if_neg hi]; rw [← hs]
      | cons i is => simp only [if_neg hi]; rw [← hs]

theorem fr_unrollIndent {column : Int} : FAct o A base s c (fUnrollIndent column) (Scanner.unrollIndent column) := by
  unfold fUnrollIndent
  refine fr_get (v := s.flowLevel) (fun _ _ _ h => h.2.2.1.flow) ?_
  by_cases hf : s.flowLevel ≠ 0
  · rw [if_pos hf]
    exact fr_nop (by unfold Scanner.unrollIndent; rw [if_pos hf])
  · rw [if_neg hf]
    refine fr_get (v := s.indents.length) (fun _ _ _ h => h.indentsTop) ?_
    exact fr_unrollLoop (by omega) (by unfold Scanner.unrollIndent; rw [if_neg hf]; rfl)

/-! ### The fetchers -/

/-- A fetcher: nothing but the scanner is left on the heap. -/
def FFet (o : Oracle) (A : Prop) (base : Nat → Option Obj) (s : Scanner) (c : Blocks) (m : HF Unit) (x : SM Unit) : Prop :=
  FRel o A base s c c m x (fun _ _ _ d => c = d)

theorem ff_last {m : HF Unit} {g : Scanner → Except Fail Scanner} (h : FAct o A base s c m g) : FFet o A base s c m (act g) :=
  xr_post h fun _ _ _ _ hq => hq.2

theorem ff_act {m : HF Unit} {k : Unit → HF Unit} {g : Scanner → Except Fail Scanner} {y : Unit → SM Unit}
    (h1 : FAct o A base s c m g) (h2 : ∀ s', FFet o A base s' c (k ()) (y ())) : FFet o A base s c (m >>= k) (act g >>= y) :=
  fr_act h1 fun s' _ => h2 s'

theorem ff_bind {m : HF Unit} {k : Unit → HF Unit} {x : SM Unit} {y : Unit → SM Unit}
    (h1 : FFet o A base s c m x) (h2 : ∀ s', FFet o A base s' c (k ()) (y ())) : FFet o A base s c (m >>= k) (x >>= y) := by
  refine xr_bind h1 ?_
  rintro _ _ s' d rfl
  exact h2 s'

/-- A function that scans a token, and the rest of its fetcher. -/
theorem ff_token {m : HL HToken} {x : Lex Token} (hm : ∀ c, LRel o A base [] nullV c c m x (QT c)) :
    FFet o A base s c (hlex m >>= fEnqueueOwned) (lex x >>= fun t => act (Scanner.enqueue t)) := by
  refine xr_bind (fr_lexTok (R := SameToken) fun c => xr_post (hm c) ?_) ?_
  · rintro _ _ _ _ ⟨h1, b, h2, h3, h4, h5⟩
    exact ⟨h1, b, ⟨h2, h3, h4⟩, h5⟩
  · rintro v a _ d ⟨⟨mk, rfl⟩, hx⟩
    exact xr_post (fr_enqueueOwned hx) fun _ _ _ _ hq => hq.2

theorem ff_indicator {n : Nat} {d : TokData} (hd : d.isPlain = true) : FFet o A base s c (fIndicator o n d) (fetchIndicator n d) := by
  unfold fIndicator fetchIndicator
  refine fr_vget (fr_get (fun _ _ _ h => h.2.2.1.mark) ?_)
  refine fr_in fun _ mk => ?_
  refine fr_vget (fr_get (fun _ _ _ h => h.2.2.1.mark) ?_)
  exact ff_last (fr_enqueuePlain hd rfl)

theorem ff_streamStart : FFet o A base s c fStreamStart fetchStreamStart := by
  unfold fStreamStart fetchStreamStart
  refine ff_last ?_
  refine fr_seq (g1 := fun s => .ok { s with indent := -1 }) (g2 := fun s => .ok { s with keys := {} :: s.keys, allowed := true, startProduced := true, tokens := (s.tokens ++ [{ data := .streamStart s.enc, start := s.mark, stop := s.mark }]) })
    (fr_mod rfl (fun _ => ⟨rfl, rfl, rfl, rfl, rfl⟩) ⟨rfl, rfl, rfl⟩ fun _ h => ⟨h.enc, h.mark, h.started, h.flow, h.parsed, rfl, h.allowed⟩) ?_ rfl
  rintro s1 -
  refine fr_seq (g1 := fun s => .ok { s with keys := {} :: s.keys }) (g2 := fun s => .ok { s with allowed := true, startProduced := true, tokens := (s.tokens ++ [{ data := .streamStart s.enc, start := s.mark, stop := s.mark }]) })
    (fr_pushKey rfl) ?_ rfl
  rintro s2 -
  refine fr_seq (g1 := fun s => .ok { s with allowed := true, startProduced := true }) (g2 := fun s => s.enqueue { data := .streamStart s.enc, start := s.mark, stop := s.mark })
    (fr_mod rfl (fun _ => ⟨rfl, rfl, rfl, rfl, rfl⟩) ⟨rfl, rfl, rfl⟩ fun _ h => ⟨h.enc, h.mark, rfl, h.flow, h.parsed, h.indent, rfl⟩) ?_ rfl
  rintro s3 -
  refine fr_get (v := (s3.enc, s3.mark)) (fun _ _ _ h => by rw [h.2.2.1.enc, h.2.2.1.mark]) ?_
  exact fr_enqueuePlain rfl rfl

theorem ff_resetAll : FFet o A base s c fResetAll resetAll := by
  unfold fResetAll resetAll
  exact ff_act fr_unrollIndent fun _ => ff_act fr_removeKey fun _ => ff_last fr_allow

theorem ff_streamEnd : FFet o A base s c fStreamEnd fetchStreamEnd := by
  unfold fStreamEnd fetchStreamEnd
  refine ff_act (fr_mod rfl (fun _ => ⟨rfl, rfl, rfl, rfl, rfl⟩) ⟨rfl, rfl, rfl⟩
    fun _ h => ⟨h.enc, by rw [← h.mark], h.started, h.flow, h.parsed, h.indent, h.allowed⟩) fun s1 => ?_
  refine ff_bind ff_resetAll fun s2 => ?_
  exact fr_get (fun _ _ _ h => h.2.2.1.mark) (ff_last (fr_enqueuePlain rfl rfl))

theorem fr_startBlock {d : TokData} (hd : d.isPlain = true) {p : String} : FAct o A base s c (fStartBlock d p) (startBlock d p) := by
  unfold fStartBlock
  refine fr_get (v := s.flowLevel) (fun _ _ _ h => h.2.2.1.flow) ?_
  by_cases hf : s.flowLevel = 0
  · rw [if_pos hf]
    refine fr_get (v := s.mark) (fun _ _ _ h => h.2.2.1.mark) (fr_get (v := s.allowed) (fun _ _ _ h => h.2.2.1.allowed) ?_)
    cases ha : s.allowed with
    | true =>
      rw [if_pos rfl]
      exact fr_eq (by unfold startBlock; rw [if_pos hf, ha, if_pos rfl]) (fr_rollIndent hd)
    | false =>
      rw [if_neg (by simp)]
      exact fr_err (by unfold startBlock; rw [if_pos hf, ha, if_neg (by simp)])
  · rw [if_neg hf]
    exact fr_nop (by unfold startBlock; rw [if_neg hf])

theorem fr_allowBlock : FAct o A base s c fAllowBlock (fun s => s.allow (s.flowLevel == 0)) :=
  fr_mod rfl (fun _ => ⟨rfl, rfl, rfl, rfl, rfl⟩) ⟨rfl, rfl, rfl⟩ fun _ h => ⟨h.enc, h.mark, h.started, h.flow, h.parsed, h.indent, by rw [← h.flow]⟩

theorem fr_valueKey : FAct o A base s c fValueKey valueKey := by
  unfold fValueKey
  cases hk : s.keys with
  | nil => exact fr_ub (by unfold valueKey; rw [hk])
  | cons k ks =>
    refine fr_topKey hk ?_
    cases hp : k.possible with
    | true =>
      rw [if_pos rfl]
      refine fr_eq (g' := Scanner.insertKey k) (by unfold valueKey; rw [hk]; simp only; rw [if_pos hp]) ?_
      refine fr_seq (g1 := Scanner.insert k.tokenNumber { data := .key, start := k.mark, stop := k.mark })
        (g2 := fun s => match s.rollIndent k.mark.column (some k.tokenNumber) .blockMappingStart k.mark with
          | .error e => .error e
          | .ok s => .ok { s with keys := { k with possible := false } :: s.keys.tail, allowed := false }) (fr_insert rfl rfl) ?_ rfl
      intro s1 h1
      have hk1 : s1.keys = k :: ks := by
        unfold Scanner.insert at h1
        split at h1
        · cases h1
        · cases h1; exact hk
      refine fr_seq (g1 := Scanner.rollIndent k.mark.column (some k.tokenNumber) .blockMappingStart k.mark)
        (g2 := fun s => .ok { s with keys := { k with possible := false } :: s.keys.tail, allowed := false }) (fr_rollIndent rfl) ?_ rfl
      intro s2 h2
      have hk2 : s2.keys = k :: ks := (rollIndent_keys h2).1.trans hk1
      refine fr_seq (g1 := fun s => .ok { s with keys := { k with possible := false } :: s.keys.tail }) (g2 := Scanner.allow false)
        (fr_setKey hk2 (by rw [hk2]; rfl)) (fun _ _ => fr_allow) rfl
    | false =>
      rw [if_neg (by simp)]
      refine fr_seq (g1 := startBlock .blockMappingStart "mapping values are not allowed in this context") (g2 := fun s => s.allow (s.flowLevel == 0))
        (fr_startBlock rfl) (fun _ _ => fr_allowBlock) ?_
      unfold valueKey
      rw [hk]
      simp only
      rw [if_neg (by rw [hp]; simp)]
      rfl

theorem fr_modKeep {f : HScan → HScan} {g : Scanner → Except Fail Scanner} (hg : g s = .ok s')
    (hf : ∀ x, (f x).inp = x.inp ∧ (f x).tokens = x.tokens ∧ (f x).indents = x.indents ∧ (f x).keys = x.keys ∧ (f x).rest = x.rest)
    (hs : s'.tokens = s.tokens ∧ s'.indents = s.indents ∧ s'.keys = s.keys) (hm : ∀ x, Mirror x s → Mirror (f x) s') :
    FRel o A base s c keep (xmod f) (act g) (fun _ _ j d => g s = .ok j ∧ c = d) := by
  intro x t inp b h hr e sane
  exact fr_mod (c := c) hg hf hs hm x t inp b h hr e sane

/-- The flow indicators are tokens without strings. -/
def Kind.Plain : Kind → Prop
  | .flowStart d | .flowEnd d => d.isPlain = true
  | _ => True

theorem ff_kind {f : Nat} {k : Kind} (hk : k.Plain) : FFet o A base s c (fKind o f k) (fetchKind f k) := by
  cases k with
  | streamEnd => exact ff_streamEnd
  | directive => exact ff_bind ff_resetAll fun _ => ff_token fun _ => lr_directive
  | documentStart => exact ff_bind ff_resetAll fun _ => ff_indicator rfl
  | documentEnd => exact ff_bind ff_resetAll fun _ => ff_indicator rfl
  | flowStart d => exact ff_act fr_saveKey fun _ => ff_act fr_increaseFlow fun _ => ff_act fr_allow fun _ => ff_indicator hk
  | flowEnd d => exact ff_act fr_removeKey fun _ => ff_act fr_decreaseFlow fun _ => ff_act fr_allow fun _ => ff_indicator hk
  | flowEntry => exact ff_act fr_removeKey fun _ => ff_act fr_allow fun _ => ff_indicator rfl
  | blockEntry => exact ff_act (fr_startBlock rfl) fun _ => ff_act fr_removeKey fun _ => ff_act fr_allow fun _ => ff_indicator rfl
  | key => exact ff_act (fr_startBlock rfl) fun _ => ff_act fr_removeKey fun _ => ff_act fr_allowBlock fun _ => ff_indicator rfl
  | value => exact ff_act fr_valueKey fun _ => ff_indicator rfl
  | anchor a => exact ff_act fr_saveKey fun _ => ff_act fr_allow fun _ => ff_token fun _ => lr_anchor
  | tag =>
    refine ff_act fr_saveKey fun _ => ff_act fr_allow fun s' => ?_
    refine fr_vget (fr_get (v := s'.flowLevel) (fun _ _ _ h => h.2.2.1.flow) ?_)
    exact ff_token fun _ => lr_tag
  | block l =>
    refine ff_act fr_removeKey fun _ => ff_act fr_allow fun s' => ?_
    refine fr_vget (fr_get (v := s'.indent) (fun _ _ _ h => h.2.2.1.indent) ?_)
    exact ff_token fun _ => lr_block
  | quoted b => exact ff_act fr_saveKey fun _ => ff_act fr_allow fun _ => ff_token fun _ => lr_flow
  | plain =>
    refine ff_act fr_saveKey fun _ => ff_act fr_allow fun s' => ?_
    refine fr_vget (fr_get (v := (s'.indent, s'.flowLevel)) (fun _ _ _ h => by rw [h.2.2.1.indent, h.2.2.1.flow]) ?_)
    refine xr_bind (fr_lexTok (R := fun v a b => SameToken v.1 a.1 b ∧ v.2 = a.2) fun c => xr_post lr_plain ?_) ?_
    · rintro _ _ _ _ ⟨⟨h1, b, h2, h3, h4, h5⟩, h6⟩
      exact ⟨h1, b, ⟨⟨h2, h3, h4⟩, h6⟩, h5⟩
    · rintro ⟨v, w⟩ ⟨t, bl⟩ _ d ⟨⟨mk, rfl⟩, y, ⟨hx, hw⟩, hp⟩
      cases hw
      refine xr_perm hp ?_
      refine xr_bind (fr_modKeep (g := fun s => s.allow (w || s.allowed)) rfl (fun _ => ⟨rfl, rfl, rfl, rfl, rfl⟩) ⟨rfl, rfl, rfl⟩
        fun _ h => ⟨h.enc, h.mark, h.started, h.flow, h.parsed, h.indent, by rw [← h.allowed]⟩) ?_
      rintro _ _ s2 _ ⟨_, rfl⟩
      exact xr_post (fr_enqueueOwned ⟨y, hx, List.Perm.refl _⟩) fun _ _ _ _ hq => hq.2
  | unknown =>
    refine fr_get (v := s.mark) (fun _ _ _ h => h.2.2.1.mark) ?_
    rintro hs t inp b hh ⟨rfl, hr⟩ ex sane
    exact ⟨⟨_, _, _, b, ⟨rfl, hr⟩, ex⟩, .inl ⟨_, rfl, rfl⟩⟩

/-! ### The next token -/

/-- All results of a program. -/
def Prog.Gives (P : α → Prop) : Prog α → Prop
  | .ret a => P a
  | .fail _ => True
  | .cache _ k => k.Gives P
  | .look _ k => ∀ c, (k c).Gives P
  | .skip k => k.Gives P

theorem gives_bind {P : β → Prop} {p : Prog α} {k : α → Prog β} (h : ∀ a, (k a).Gives P) : (p.bind k).Gives P := by
  induction p with
  | ret a => exact h a
  | fail e => trivial
  | cache n k ih => exact ih
  | look i k ih => exact fun c => ih c
  | skip k ih => exact ih

theorem gives_run {P : α → Prop} {p : Prog α} (h : p.Gives P) {inp inp' : RS} {a : α} (hr : p.runR o inp = .ok (a, inp')) : P a := by
  induction p generalizing inp with
  | ret a => cases hr; exact h
  | fail e => cases hr
  | cache n k ih =>
    unfold Prog.runR at hr
    split at hr
    · cases hr
    · exact ih h hr
  | look i k ih =>
    unfold Prog.runR at hr
    split at hr
    · cases hr
    · exact ih _ (h _) hr
  | skip k ih =>
    unfold Prog.runR at hr
    split at hr
    · cases hr
    · exact ih h hr

/-- All results of a part of the scanner. -/
def LexGives (P : α → Prop) (x : Lex α) : Prop := ∀ m, (x m).Gives fun r => P r.1

theorem lg_bind {P : β → Prop} {x : Lex α} {k : α → Lex β} (h : ∀ a, LexGives P (k a)) : LexGives P (x >>= k) :=
  fun _ => gives_bind fun a => h a.1 a.2

theorem lg_pure {P : α → Prop} {a : α} (h : P a) : LexGives P (pure a : Lex α) := fun _ => h

theorem lg_ite {P : α → Prop} {p : Prop} [Decidable p] {x y : Lex α} (h1 : LexGives P x) (h2 : LexGives P y) : LexGives P (if p then x else y) := by
  split <;> assumption

theorem lg_dispatch {flow : Bool} : LexGives Kind.Plain (dispatch flow) := by
  unfold dispatch
  refine lg_bind fun ch => lg_bind fun m => lg_ite (lg_pure trivial) (lg_ite (lg_pure trivial) ?_)
  refine lg_bind fun b => lg_ite (lg_pure trivial) (lg_bind fun b => lg_ite (lg_pure trivial) ?_)
  unfold dispatchChar
  repeat' first
    | exact lg_pure rfl
    | exact lg_pure trivial
    | (refine lg_bind fun c => lg_pure ?_; split <;> trivial)
    | (refine lg_pure ?_; split <;> trivial)
    | refine lg_ite ?_ ?_

theorem xr_run {P : α → Prop} {m : HL β} {x : Lex α} {D : List Reg} {V : RV} {Q : β → α → RV → Blocks → Prop} (hx : LexGives P x) (h : LRel o A base D V c keep m x Q) :
    LRel o A base D V c keep m x (fun v a W d => Q v a W d ∧ P a) := by
  intro s t inp b hh hr e sane
  refine hw_mono (h s t inp b hh hr e sane) ?_
  rintro ⟨er | v, s'⟩ h' post
  · exact post
  · obtain ⟨a, t', inp', j, c, b', hrun, hr', e', hq⟩ := post
    exact ⟨a, t', inp', j, c, b', hrun, hr', e', hq, gives_run (hx t) hrun⟩

theorem ff_next {f : Nat} : FFet o A base s c (fNext o f) (fetchNext f) := by
  unfold fNext fetchNext
  refine fr_in fun _ mk => fr_vget ?_
  refine fr_get (v := (s.startProduced, s.flowLevel, s.allowed)) (fun _ _ _ h => by rw [h.2.2.1.started, h.2.2.1.flow, h.2.2.1.allowed]) ?_
  simp only
  cases s.startProduced with
  | false =>
    rw [if_neg (by simp), if_neg (by simp)]
    exact ff_streamStart
  | true =>
    rw [if_pos rfl, if_pos rfl]
    refine fr_in fun al mk => ff_act fr_allow fun s1 => ff_act fr_stale fun s2 => ?_
    refine fr_get (v := (s2.mark.column : Int)) (fun _ _ _ h => by rw [h.2.2.1.mark]) ?_
    refine ff_act (fr_eq (g' := Scanner.unrollIndent s2.mark.column) rfl fr_unrollIndent) fun s3 => fr_in fun _ mk => ?_
    refine xr_bind (fr_lexTok (R := fun v a y => v = a ∧ y = [] ∧ a.Plain) fun c => xr_post (xr_run lg_dispatch lr_hin) ?_) ?_
    · rintro v a _ _ ⟨⟨rfl, rfl, rfl⟩, hp⟩
      exact ⟨rfl, [], ⟨rfl, rfl, hp⟩, List.Perm.refl _⟩
    · rintro v a _ d ⟨⟨mk, rfl⟩, _, ⟨rfl, rfl, hk⟩, hp⟩
      exact xr_perm hp (ff_kind hk)

theorem hw_pendingLoop {x : HScan} {up down : List SimpleKey} {n i : Nat} {b : Blocks} {h : Heap} {bs : Blocks} (hn : n = up.length) (hi : i = down.length)
    (hk : StkAt (up ++ down) x.keys b) (e : Ext A base bs h) (hb : ∀ y ∈ b, y ∈ bs) :
    hw (fPendingLoop x n i) (fun r h' => h' = h ∧ r = up.any fun k => k.possible && k.tokenNumber == x.tokensParsed) h := by
  induction n generalizing up down i with
  | zero =>
    have := List.eq_nil_of_length_eq_zero hn.symm
    subst this
    unfold fPendingLoop
    rw [hw_pure]
    exact ⟨rfl, rfl⟩
  | succ n ih =>
    have hne : up ≠ [] := by rintro rfl; cases hn
    obtain ⟨up, k, rfl⟩ : ∃ u k, up = u ++ [k] := ⟨_, _, (List.dropLast_append_getLast hne).symm⟩
    have hn' : n = up.length := by simpa using hn
    have hk' : StkAt (up ++ k :: down) x.keys b := by simpa using hk
    unfold fPendingLoop
    rw [hw_bind]
    refine hw_stk_get hk' hi e hb ?_
    rw [hw_ite]
    split
    · rename_i hp
      rw [hw_pure]
      exact ⟨rfl, by simp at hp; simp [hp]⟩
    · rename_i hp
      refine hw_mono (ih (up := up) (down := k :: down) hn' (by simp [hi]) hk') ?_
      rintro r h' ⟨rfl, rfl⟩
      refine ⟨rfl, ?_⟩
      have hp' : (k.possible && k.tokenNumber == x.tokensParsed) = false := Bool.eq_false_iff.mpr hp
      rw [List.any_append, List.any_cons, hp']
      simp

theorem fr_pending {k : Bool → HF β} {x : SM α} {Q : β → α → Scanner → Blocks → Prop} (h : FRel o A base s c keep (k s.headPending) x Q) :
    FRel o A base s c keep (fPending >>= k) x Q := by
  rintro hs t inp b hh ⟨rfl, h1, h2, vs, b1, b2, b3, b4, b5, k1, k2, k3, k4, k5, k6⟩ e sane
  have hr : FRep t hs t inp b := ⟨rfl, h1, h2, vs, b1, b2, b3, b4, b5, k1, k2, k3, k4, k5, k6⟩
  rw [xw_bind]
  unfold fPending
  rw [hw_bind, hr.keysTop]
  refine hw_mono (hw_pendingLoop (up := t.keys) (down := []) (b := b4) rfl rfl (by simpa using k4) e ?_) ?_
  · intro y hy
    refine List.mem_append_left _ (k6.mem_iff.mpr ?_)
    simp [hy]
  · rintro r h' ⟨rfl, rfl⟩
    rw [hw_pure, h2.parsed]
    exact h hs t inp b _ hr e sane

theorem ff_more {f n : Nat} : FFet o A base s c (fMore o f n) (fetchMore f n) := by
  induction n generalizing s with
  | zero =>
    rintro hs t inp b hh ⟨rfl, hr⟩ e sane
    exact absurd rfl (sane .fuel rfl).2
  | succ n ih =>
    unfold fMore fetchMore
    refine fr_vget (fr_get (v := s.tokens.isEmpty) (fun _ _ _ h => ?_) ?_)
    · have := h.queued
      cases hl : s.tokens with
      | nil => rw [hl] at this; simp at this; simp [this]
      | cons t ts => rw [hl] at this; simp at this; simp [this]
    · cases s.tokens.isEmpty with
      | true =>
        rw [if_pos rfl, if_pos rfl]
        exact ff_bind ff_next fun s' => ih
      | false =>
        rw [if_neg (by simp), if_neg (by simp)]
        refine ff_act fr_stale fun s1 => fr_vget (fr_pending ?_)
        cases s1.headPending with
        | true =>
          rw [if_pos rfl, if_pos rfl]
          exact ff_bind ff_next fun s' => ih
        | false =>
          rw [if_neg (by simp), if_neg (by simp)]
          exact xr_pure rfl

theorem fr_token {f : Nat} : FRel o A base s c c (fToken o f) (nextToken f) (fun v t _ d => ∃ x, SameToken v t x ∧ d.Perm (x ++ c)) := by
  unfold fToken nextToken
  refine xr_bind ff_more ?_
  rintro _ _ s1 d rfl
  rintro hs t inp b hh ⟨rfl, h1, h2, vs, b1, b2, b3, b4, b5, k1, k2, k3, k4, k5, k6⟩ e sane
  cases ht : t.tokens with
  | nil =>
    refine absurd rfl (sane .ub ?_).1
    simp only [ht]
    rfl
  | cons u us =>
    rw [ht] at k2
    obtain ⟨v, vs', y, z, rfl, j1, j2, rfl⟩ := k2
    unfold fDequeue
    rw [hw_bind]
    refine hw_qPop (bs' := (y ++ z) ++ (b3 ++ (b4 ++ (b5 ++ c)))) k1 e (by blocks_by k6) fun h' q' x' j1' e' => ?_
    rw [hw_pure]
    refine ⟨u, { t with tokens := us, tokensParsed := t.tokensParsed + 1 }, inp, _, y ++ c, x' ++ (z ++ (b3 ++ (b4 ++ b5))), by simp only [ht]; rfl,
      ⟨rfl, h1, ⟨h2.1, h2.2, h2.3, h2.4, by rw [← h2.parsed], h2.6, h2.7⟩, vs', x', z, b3, b4, b5, j1', j2, k3, k4, k5, List.Perm.refl _⟩,
      e'.perm (by blocks), y, j1, List.Perm.refl _⟩

end

end LibYaml
