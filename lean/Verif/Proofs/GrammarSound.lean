import Verif.Proofs.GrammarDocs

/-! Every accepting run of the push-down automaton comes from a derivation of the implemented grammar. -/

namespace LibYaml

open Spec

/-- The computations that a derivation can be read off. -/
inductive PKind
  | node (b i : Bool)
  | blockSeq | indentless | indentless1 | blockKey | blockVal | flowItem | flowSeq | pairKey | pairVal | flowPair | flowMap | flowVal

/-- The computation. -/
def PKind.comp (f : Nat → Option TokData) : PKind → AC → AOut
  | .node b i => anode f b i
  | .blockSeq => ablockSeq f
  | .indentless => aindentless f
  | .indentless1 => fun c => if f c.pos = some .blockEntry then aindentless f c else none
  | .blockKey => ablockKey f
  | .blockVal => ablockValue f
  | .flowItem => aflowItem f
  | .flowSeq => aflowSeq f
  | .pairKey => apairKey f
  | .pairVal => apairValue f
  | .flowPair => aflowPair f
  | .flowMap => aflowMap f
  | .flowVal => aflowValue f

/-- `Gram` for the grammar as implemented. -/
abbrev GI (tags : List TagDir) := Gram .implemented tags

/-- Behind an entry of a flow sequence. -/
def FlowTail (tags : List TagDir) (items : Nt) (close : TokData) (stop : EvData) (ts : List TokData) (ev : List EvData) : Prop :=
  (ts = [close] ∧ ev = [stop]) ∨
    ∃ ts' ev', ts = .flowEntry :: ts' ++ [close] ∧ ev = ev' ++ [stop] ∧ GI tags items ts' ev'

/-- What is derived until the end of the innermost node. -/
def PKind.der (tags : List TagDir) : PKind → List TokData → List EvData → Prop
  | .node b i, ts, ev => GI tags (.node b i) ts ev
  | .blockSeq, ts, ev => ∃ ts' ev', ts = ts' ++ [.blockEnd] ∧ ev = ev' ++ [.sequenceEnd] ∧ GI tags .blockEntries ts' ev'
  | .indentless, ts, ev => ∃ ev', ev = ev' ++ [.sequenceEnd] ∧ GI tags .blockEntries ts ev'
  | .indentless1, ts, ev => ts ≠ [] ∧ ∃ ev', ev = ev' ++ [.sequenceEnd] ∧ GI tags .blockEntries ts ev'
  | .blockKey, ts, ev => ∃ ts' ev', ts = ts' ++ [.blockEnd] ∧ ev = ev' ++ [.mappingEnd] ∧ GI tags .blockPairs ts' ev'
  | .blockVal, ts, ev => ∃ tx ex ts' ev', ts = tx ++ ts' ++ [.blockEnd] ∧ ev = ex ++ ev' ++ [.mappingEnd] ∧
      GI tags (.value true true) tx ex ∧ GI tags .blockPairs ts' ev'
  | .flowItem, ts, ev => ∃ ts' ev', ts = ts' ++ [.flowSequenceEnd] ∧ ev = ev' ++ [.sequenceEnd] ∧ GI tags .flowItems ts' ev'
  | .flowSeq, ts, ev => FlowTail tags .flowItems .flowSequenceEnd .sequenceEnd ts ev
  | .pairKey, ts, ev => ∃ ts' ev', ts = ts' ++ [.flowSequenceEnd] ∧ ev = ev' ++ [.sequenceEnd] ∧
      GI tags .flowItems (.key :: ts') (.mappingStart none none true .flow :: ev')
  | .pairVal, ts, ev => ∃ tx ex tr er, ts = tx ++ tr ∧ ev = ex ++ .mappingEnd :: er ∧ GI tags (.value false false) tx ex ∧
      FlowTail tags .flowItems .flowSequenceEnd .sequenceEnd tr er
  | .flowPair, ts, ev => ∃ ts' ev', ts = ts' ++ [.flowMappingEnd] ∧ ev = ev' ++ [.mappingEnd] ∧ GI tags .flowPairs ts' ev'
  | .flowMap, ts, ev => FlowTail tags .flowPairs .flowMappingEnd .mappingEnd ts ev
  | .flowVal, ts, ev => ∃ tx ex tr er, ts = tx ++ tr ∧ ev = ex ++ er ∧ GI tags (.value false false) tx ex ∧
      FlowTail tags .flowPairs .flowMappingEnd .mappingEnd tr er

variable {f : Nat → Option TokData} {fuel : Nat} {tags : List TagDir}

/-- A first part of the events is derived by `D`, the rest is delivered from the configuration `next`. -/
def Splits (f : Nat → Option TokData) (fuel : Nat) (D : List TokData → List EvData → Prop) (k : Nat) (next : Nat → AC)
    (evs : List EvData) (cend : AC) : Prop :=
  ∃ ts ev1 ev2 k', evs = ev1 ++ ev2 ∧ ev1 ≠ [] ∧ Seg f k ts k' ∧ D ts ev1 ∧ Runs f fuel (next k') ev2 cend

/-- Runs of at most `n` events. -/
def SoundK (f : Nat → Option TokData) (fuel : Nat) (tags : List TagDir) (n : Nat) (kind : PKind) : Prop :=
  ∀ (c : AC) q K evs cend, evs.length ≤ n → cend.st = .done → c.tags = table tags → c.stk = q :: K →
    Thn f fuel (kind.comp f c) evs cend →
    Splits f fuel (kind.der tags) c.pos (fun k' => { c with st := q, stk := K, pos := k' }) evs cend

theorem thn_some {r : AOut} {evs : List EvData} {cend : AC} (h : Thn f fuel r evs cend) :
    ∃ e c, r = some (e, c) ∧ ∃ es, evs = e :: es ∧ Runs f fuel c es cend := by
  obtain ⟨e, es, c, h1, h2, h3⟩ := h
  exact ⟨e, c, h2, es, h1, h3⟩

theorem thn_none {evs : List EvData} {cend : AC} (h : Thn f fuel none evs cend) : False := by
  obtain ⟨_, _, _, _, h, _⟩ := h; cases h

/-- A step that delivers one event and derives it. -/
theorem splits_one {D : List TokData → List EvData → Prop} {k k' : Nat} {next : Nat → AC} {evs : List EvData} {cend : AC}
    {e : EvData} {ts : List TokData} (h : Thn f fuel (some (e, next k')) evs cend) (hs : Seg f k ts k') (hD : D ts [e]) :
    Splits f fuel D k next evs cend := by
  obtain ⟨e', c', he, es, h1, h2⟩ := thn_some h
  cases he
  exact ⟨ts, [e], es, k', h1, by simp, hs, hD, h2⟩

theorem runs_step {c cend : AC} {evs : List EvData} (h : Runs f fuel c evs cend) (hend : cend.st = .done) (hc : c.st ≠ .done) :
    Thn f fuel (astep f fuel c) evs cend := by
  apply thn_of_runs h
  intro h0
  subst h0
  have : c = cend := h
  subst this
  exact hc hend

/-- Continue after a first part. -/
theorem splits_bind {D D' D'' : List TokData → List EvData → Prop} {k : Nat} {mid next : Nat → AC} {evs : List EvData} {cend : AC}
    (h : Splits f fuel D k mid evs cend)
    (hmid : ∀ k' ev2, ev2.length < evs.length → Runs f fuel (mid k') ev2 cend → Splits f fuel D' k' next ev2 cend)
    (hD : ∀ t1 e1 t2 e2, D t1 e1 → D' t2 e2 → D'' (t1 ++ t2) (e1 ++ e2)) : Splits f fuel D'' k next evs cend := by
  obtain ⟨ts, ev1, ev2, k', he, hne, hs, hd, hr⟩ := h
  have hl : ev2.length < evs.length := by
    rw [he, List.length_append]
    have : 0 < ev1.length := List.length_pos_iff.mpr hne
    omega
  obtain ⟨ts', ev1', ev2', k'', he', hne', hs', hd', hr'⟩ := hmid k' ev2 hl hr
  exact ⟨ts ++ ts', ev1 ++ ev1', ev2', k'', by rw [he, he', List.append_assoc], by simp [hne], seg_append.mpr ⟨k', hs, hs'⟩,
    hD _ _ _ _ hd hd', hr'⟩

theorem splits_mono {D D' : List TokData → List EvData → Prop} {k : Nat} {next : Nat → AC} {evs : List EvData} {cend : AC}
    (h : Splits f fuel D k next evs cend) (hD : ∀ t e, D t e → D' t e) : Splits f fuel D' k next evs cend := by
  obtain ⟨ts, ev1, ev2, k', he, hne, hs, hd, hr⟩ := h
  exact ⟨ts, ev1, ev2, k', he, hne, hs, hD _ _ hd, hr⟩

/-- A token in front. -/
theorem splits_tok {D D' : List TokData → List EvData → Prop} {k : Nat} {next : Nat → AC} {evs : List EvData} {cend : AC}
    {d : TokData} (hd : f k = some d) (h : Splits f fuel D (k + 1) next evs cend) (hD : ∀ t e, D t e → D' (d :: t) e) :
    Splits f fuel D' k next evs cend := by
  obtain ⟨ts, ev1, ev2, k', he, hne, hs, hdd, hr⟩ := h
  exact ⟨d :: ts, ev1, ev2, k', he, hne, ⟨hd, hs⟩, hD _ _ hdd, hr⟩

/-! ### Properties and content -/

theorem expand_atag {h s : Text} {t : Option Text} (he : atag (table tags) (some (h, s)) = some t) :
    ∃ t', t = some t' ∧ expand tags h s = some t' := by
  simp only [atag] at he
  unfold expand
  by_cases h0 : h = []
  · rw [if_pos h0] at he ⊢; cases he; exact ⟨_, rfl, rfl⟩
  · rw [if_neg h0] at he ⊢
    rw [find_table] at he
    cases hf : (tags ++ predeclared).find? (fun d => d.handle == h) with
    | none => rw [hf] at he; cases he
    | some d => rw [hf] at he; cases he; exact ⟨_, rfl, rfl⟩

/-- A node that is no alias has properties and content. -/
theorem anode_inv {b i : Bool} {c : AC} {r : EvData × AC} (h : anode f b i c = some r) (ht : c.tags = table tags) :
    (∃ a, f c.pos = some (.alias a) ∧ c.next.pop (.alias a) = some r) ∨
    ∃ p a t m, Properties tags p a t ∧ Seg f c.pos p m ∧ acontent f b i a t { c with pos := m } = some r := by
  unfold anode at h
  cases hf : f c.pos with
  | none => rw [hf] at h; cases h
  | some d =>
    rw [hf] at h
    have main : ∀ x : Option (Option Text × Option (Text × Text) × Nat), aprops f c.pos = x → (match x with
        | none => (none : AOut)
        | some (a, t, k) =>
          match atag c.tags t with
          | none => none
          | some t => acontent f b i a t { c with pos := k }) = some r →
        ∃ p a t m, Properties tags p a t ∧ Seg f c.pos p m ∧ acontent f b i a t { c with pos := m } = some r := by
      intro x hx hr
      cases x with
      | none => cases hr
      | some y =>
        obtain ⟨a, t, k⟩ := y
        simp only at hr
        cases hat : atag c.tags t with
        | none => rw [hat] at hr; cases hr
        | some tg =>
          rw [hat] at hr
          simp only at hr
          rw [ht] at hat
          unfold aprops at hx
          rw [hf] at hx
          cases d with
          | anchor a' =>
            simp only at hx
            cases h1 : f (c.pos + 1) with
            | none => rw [h1] at hx; cases hx
            | some d1 =>
              rw [h1] at hx
              cases d1 with
              | tag hh ss =>
                simp only at hx
                split at hx
                · cases hx
                · cases hx
                  obtain ⟨t', rfl, he⟩ := expand_atag hat
                  exact ⟨_, _, _, _, .anchorTag he, ⟨hf, h1, rfl⟩, hr⟩
              | _ =>
                cases hx
                cases hat
                exact ⟨_, _, _, _, .anchor a', ⟨hf, rfl⟩, hr⟩
          | tag hh ss =>
            simp only at hx
            cases h1 : f (c.pos + 1) with
            | none => rw [h1] at hx; cases hx
            | some d1 =>
              rw [h1] at hx
              cases d1 with
              | anchor a' =>
                simp only at hx
                split at hx
                · cases hx
                · cases hx
                  obtain ⟨t', rfl, he⟩ := expand_atag hat
                  exact ⟨_, _, _, _, .tagAnchor he, ⟨hf, h1, rfl⟩, hr⟩
              | _ =>
                cases hx
                obtain ⟨t', rfl, he⟩ := expand_atag hat
                exact ⟨_, _, _, _, .tag he, ⟨hf, rfl⟩, hr⟩
          | _ =>
            cases hx
            cases hat
            exact ⟨_, _, _, _, .none, rfl, hr⟩
    cases d with
    | alias a => exact .inl ⟨a, rfl, h⟩
    | _ => exact .inr (main _ rfl h)

theorem pop_inv' {c : AC} {d : EvData} {q : PState} {K : List PState} (hq : c.stk = q :: K) :
    c.pop d = some (d, { c with st := q, stk := K }) := by
  simp only [AC.pop, hq]

/-- Put properties in front of what a collection derives. -/
theorem splits_open {D D' : List TokData → List EvData → Prop} {k m : Nat} {p : List TokData} {next : Nat → AC} {c1 : AC}
    {e : EvData} {evs : List EvData} {cend : AC} (hp : Seg f k p m) (h : Thn f fuel (some (e, c1)) evs cend)
    (hmid : ∀ ev2, ev2.length < evs.length → Runs f fuel c1 ev2 cend → Splits f fuel D m next ev2 cend)
    (hD : ∀ t ev, D t ev → D' (p ++ t) (e :: ev)) : Splits f fuel D' k next evs cend := by
  obtain ⟨e', c', he, es, h1, h2⟩ := thn_some h
  cases he
  obtain ⟨ts, ev1, ev2, k', h3, _, hs, hd, hr⟩ := hmid es (by rw [h1]; simp) h2
  exact ⟨p ++ ts, e :: ev1, ev2, k', by rw [h1, h3]; rfl, by simp, seg_append.mpr ⟨m, hp, hs⟩, hD _ _ hd, hr⟩

theorem sound_node {n : Nat} (ih : ∀ m, m < n → ∀ kind, SoundK f fuel tags m kind) (b i : Bool) :
    SoundK f fuel tags n (.node b i) := by
  intro c q K evs cend hn hend ht hq h
  obtain ⟨e, c1, hr, es, hes, hrun⟩ := thn_some h
  have hr' : anode f b i c = some (e, c1) := hr
  rcases anode_inv hr' ht with ⟨a, ha, hpop⟩ | ⟨p, a, t, m, hp, hs, hc⟩
  · rw [pop_inv' (c := c.next) hq] at hpop
    have hth : Thn f fuel (some (.alias a, { c with st := q, stk := K, pos := c.pos + 1 })) evs cend := by
      rw [show PKind.comp f (.node b i) c = anode f b i c from rfl, hr', ← hpop] at h; exact h
    exact splits_one (next := fun k' => { c with st := q, stk := K, pos := k' }) hth (seg_one.mpr ⟨ha, rfl⟩) (.alias a)
  · have hth : Thn f fuel (acontent f b i a t { c with pos := m }) evs cend := by
      rw [show PKind.comp f (.node b i) c = anode f b i c from rfl, hr', ← hc] at h; exact h
    clear hr' hr h hc hrun hes
    have rest : Thn f fuel (if (a.isSome || t.isSome) = true then
        AC.pop { c with pos := m } (.scalar a t [] (untagged t) false .plain) else none) evs cend →
        Splits f fuel (PKind.der tags (.node b i)) c.pos (fun k' => { c with st := q, stk := K, pos := k' }) evs cend := by
      intro hth
      split at hth
      next hs' =>
        rw [pop_inv' (c := { c with pos := m }) hq] at hth
        refine splits_one (next := fun k' => { c with st := q, stk := K, pos := k' }) hth hs (.empty hp ?_)
        rintro rfl
        cases hp; cases hs'
      next => exact (thn_none hth).elim
    unfold acontent at hth
    cases hm : f m with
    | none => simp only [hm] at hth; exact (thn_none hth).elim
    | some d =>
      simp only [hm] at hth
      by_cases hi : (i && d == .blockEntry) = true
      · rw [if_pos hi] at hth
        simp only [Bool.and_eq_true, beq_iff_eq] at hi
        obtain ⟨rfl, rfl⟩ := hi
        refine splits_open (D := PKind.der tags .indentless1) hs hth ?_ ?_
        · intro ev2 hl hrun
          refine ih ev2.length (by omega) .indentless1 { c with st := .indentlessSequenceEntry, pos := m } q K ev2 cend
            (Nat.le_refl _) hend ht hq ?_
          simp only [PKind.comp]
          rw [if_pos (by exact hm)]
          exact runs_step hrun hend (by simp)
        · rintro ts ev ⟨hne, ev', rfl, hg⟩
          exact .indentless hp hg hne
      · rw [if_neg hi] at hth
        cases d with
        | scalar x style =>
          simp only at hth
          rw [pop_inv' (c := AC.next { c with pos := m }) hq] at hth
          exact splits_one (next := fun k' => { c with st := q, stk := K, pos := k' }) hth
            (seg_append.mpr ⟨m, hs, seg_one.mpr ⟨hm, rfl⟩⟩) (.scalar x style hp)
        | flowSequenceStart =>
          refine splits_open (D := fun ts ev => ∃ ts', ts = .flowSequenceStart :: ts' ∧ PKind.der tags .flowItem ts' ev) hs hth ?_ ?_
          · intro ev2 hl hrun
            have hstep := runs_step hrun hend (by simp)
            simp only [astep, hm] at hstep
            rw [if_neg (by simp)] at hstep
            refine splits_tok hm (ih ev2.length (by omega) .flowItem (AC.next { c with st := .flowSequenceFirstEntry, pos := m })
              q K ev2 cend (Nat.le_refl _) hend ht hq hstep) (fun t e h => ⟨t, rfl, h⟩)
          · rintro ts ev ⟨ts', rfl, ts'', ev', rfl, rfl, hg⟩
            have := Gram.flowSequence (b := b) (i := i) hp hg
            rw [List.append_assoc] at this
            exact this
        | flowMappingStart =>
          refine splits_open (D := fun ts ev => ∃ ts', ts = .flowMappingStart :: ts' ∧ PKind.der tags .flowPair ts' ev) hs hth ?_ ?_
          · intro ev2 hl hrun
            have hstep := runs_step hrun hend (by simp)
            simp only [astep, hm] at hstep
            rw [if_neg (by simp)] at hstep
            refine splits_tok hm (ih ev2.length (by omega) .flowPair (AC.next { c with st := .flowMappingFirstKey, pos := m })
              q K ev2 cend (Nat.le_refl _) hend ht hq hstep) (fun t e h => ⟨t, rfl, h⟩)
          · rintro ts ev ⟨ts', rfl, ts'', ev', rfl, rfl, hg⟩
            have := Gram.flowMapping (b := b) (i := i) hp hg
            rw [List.append_assoc] at this
            exact this
        | blockSequenceStart =>
          cases b with
          | true =>
            refine splits_open (D := fun ts ev => ∃ ts', ts = .blockSequenceStart :: ts' ∧ PKind.der tags .blockSeq ts' ev) hs hth ?_ ?_
            · intro ev2 hl hrun
              have hstep := runs_step hrun hend (by simp)
              simp only [astep, hm] at hstep
              rw [if_neg (by simp)] at hstep
              refine splits_tok hm (ih ev2.length (by omega) .blockSeq (AC.next { c with st := .blockSequenceFirstEntry, pos := m })
                q K ev2 cend (Nat.le_refl _) hend ht hq hstep) (fun t e h => ⟨t, rfl, h⟩)
            · rintro ts ev ⟨ts', rfl, ts'', ev', rfl, rfl, hg⟩
              have := Gram.blockSequence (i := i) hp hg
              rw [List.append_assoc] at this
              exact this
          | false =>
            simp only at hth
            rw [if_neg (by simp), if_neg (by simp)] at hth
            exact rest hth
        | blockMappingStart =>
          cases b with
          | true =>
            refine splits_open (D := fun ts ev => ∃ ts', ts = .blockMappingStart :: ts' ∧ PKind.der tags .blockKey ts' ev) hs hth ?_ ?_
            · intro ev2 hl hrun
              have hstep := runs_step hrun hend (by simp)
              simp only [astep, hm] at hstep
              rw [if_neg (by simp)] at hstep
              refine splits_tok hm (ih ev2.length (by omega) .blockKey (AC.next { c with st := .blockMappingFirstKey, pos := m })
                q K ev2 cend (Nat.le_refl _) hend ht hq hstep) (fun t e h => ⟨t, rfl, h⟩)
            · rintro ts ev ⟨ts', rfl, ts'', ev', rfl, rfl, hg⟩
              have := Gram.blockMapping (i := i) hp hg
              rw [List.append_assoc] at this
              exact this
          | false =>
            simp only at hth
            rw [if_neg (by simp), if_neg (by simp)] at hth
            exact rest hth
        | _ =>
          simp only at hth
          rw [if_neg (by simp), if_neg (by simp)] at hth
          exact rest hth

/-- An optional node, and what follows it. -/
theorem sound_opt {n : Nat} {b i : Bool} (hnode : SoundK f fuel tags n (.node b i)) {c : AC} {stop : List TokData} {q : PState}
    {evs : List EvData} {cend : AC} (hn : evs.length ≤ n) (hend : cend.st = .done) (ht : c.tags = table tags)
    (h : Thn f fuel (aopt f b i stop q c) evs cend) :
    Splits f fuel (GI tags (.opt b i)) c.pos (fun k' => { c with st := q, pos := k' }) evs cend := by
  unfold aopt at h
  cases hf : f c.pos with
  | none => rw [hf] at h; exact (thn_none h).elim
  | some d =>
    rw [hf] at h
    simp only at h
    split at h
    · exact splits_one (next := fun k' => { c with st := q, pos := k' }) h (ts := []) rfl .missing
    · exact splits_mono (hnode (c.push q) q c.stk evs cend hn hend ht rfl h) fun t e hg => .present hg

theorem sound_value {n : Nat} {b i : Bool} (hnode : SoundK f fuel tags n (.node b i)) {c : AC} {stop : List TokData} {q : PState}
    {evs : List EvData} {cend : AC} (hn : evs.length ≤ n) (hend : cend.st = .done) (ht : c.tags = table tags)
    (h : Thn f fuel (avalue f b i stop q c) evs cend) :
    Splits f fuel (GI tags (.value b i)) c.pos (fun k' => { c with st := q, pos := k' }) evs cend := by
  unfold avalue at h
  cases hf : f c.pos with
  | none => rw [hf] at h; exact (thn_none h).elim
  | some d =>
    rw [hf] at h
    cases d with
    | value => exact splits_tok hf (sound_opt hnode (c := c.next) hn hend ht h) fun t e hg => .value hg
    | _ => exact splits_one (next := fun k' => { c with st := q, pos := k' }) h (ts := []) rfl .noValue

/-- An entry and what follows it. -/
theorem items_tail {w tr : List TokData} {e er : List EvData} (h : GI tags .flowItem w e)
    (ht : FlowTail tags .flowItems .flowSequenceEnd .sequenceEnd tr er) :
    ∃ ts' ev', w ++ tr = ts' ++ [.flowSequenceEnd] ∧ e ++ er = ev' ++ [.sequenceEnd] ∧ GI tags .flowItems ts' ev' := by
  rcases ht with ⟨rfl, rfl⟩ | ⟨ts', ev', rfl, rfl, hg⟩
  · exact ⟨w, e, rfl, rfl, .itemsOne h⟩
  · exact ⟨w ++ .flowEntry :: ts', e ++ ev', by simp, by simp, .itemsCons h hg⟩

theorem pairs_tail {w tr : List TokData} {e er : List EvData} (h : GI tags .flowPair w e)
    (ht : FlowTail tags .flowPairs .flowMappingEnd .mappingEnd tr er) :
    ∃ ts' ev', w ++ tr = ts' ++ [.flowMappingEnd] ∧ e ++ er = ev' ++ [.mappingEnd] ∧ GI tags .flowPairs ts' ev' := by
  rcases ht with ⟨rfl, rfl⟩ | ⟨ts', ev', rfl, rfl, hg⟩
  · exact ⟨w, e, rfl, rfl, .fpairsOne h⟩
  · exact ⟨w ++ .flowEntry :: ts', e ++ ev', by simp, by simp, .fpairsCons h hg⟩

/-- One event, then a derivation. -/
theorem splits_event {D D' : List TokData → List EvData → Prop} {k k' : Nat} {next : Nat → AC} {evs : List EvData} {cend : AC}
    {e : EvData} {ts : List TokData} {c' : AC} (h : Thn f fuel (some (e, c')) evs cend) (hs : Seg f k ts k')
    (hmid : ∀ ev2, ev2.length < evs.length → Runs f fuel c' ev2 cend → Splits f fuel D k' next ev2 cend)
    (hD : ∀ t2 e2, D t2 e2 → D' (ts ++ t2) (e :: e2)) : Splits f fuel D' k next evs cend := by
  obtain ⟨e', c'', he, es, h1, h2⟩ := thn_some h
  cases he
  obtain ⟨ts', ev1', ev2', k'', he', hne', hs', hd', hr'⟩ := hmid es (by rw [h1]; simp) h2
  exact ⟨ts ++ ts', e :: ev1', ev2', k'', by rw [h1, he']; rfl, by simp, seg_append.mpr ⟨k', hs, hs'⟩, hD _ _ hd', hr'⟩

theorem sound_step {n : Nat} (ih : ∀ m, m < n → ∀ kind, SoundK f fuel tags m kind) (kind : PKind) : SoundK f fuel tags n kind := by
  have hnode := sound_node ih
  have hindent1 : SoundK f fuel tags n .indentless1 := by
    intro c q K evs cend hn hend ht hq h
    simp only [PKind.comp] at h
    by_cases hf : f c.pos = some .blockEntry
    · rw [if_pos hf] at h
      simp only [aindentless, hf] at h
      have h1 := sound_opt (hnode true false) (c := c.next) hn hend ht h
      refine splits_tok hf (splits_bind (D' := PKind.der tags .indentless) (D'' := fun t e => ∃ t1 e1 t2 e2, t = t1 ++ t2 ∧ e = e1 ++ e2 ∧
        GI tags (.opt true false) t1 e1 ∧ PKind.der tags .indentless t2 e2) h1 ?_ ?_) ?_
      · intro k' ev2 hl hrun
        exact ih ev2.length (by omega) .indentless { c with st := .indentlessSequenceEntry, pos := k' } q K ev2 cend
          (Nat.le_refl _) hend ht hq (runs_step hrun hend (by simp))
      · intro t1 e1 t2 e2 h1 h2; exact ⟨t1, e1, t2, e2, rfl, rfl, h1, h2⟩
      · rintro t e ⟨t1, e1, t2, e2, rfl, rfl, h1, ev', rfl, h2⟩
        refine ⟨by simp, e1 ++ ev', by simp, ?_⟩
        exact .entriesCons h1 h2
    · rw [if_neg hf] at h; exact (thn_none h).elim
  have hitem : SoundK f fuel tags n .flowItem := by
    intro c q K evs cend hn hend ht hq h
    simp only [PKind.comp, aflowItem] at h
    cases hd : f c.pos with
    | none => rw [hd] at h; exact (thn_none h).elim
    | some d =>
      rw [hd] at h
      have hnd : Thn f fuel (anode f false false (c.push .flowSequenceEntry)) evs cend →
          Splits f fuel (PKind.der tags .flowItem) c.pos (fun k' => { c with st := q, stk := K, pos := k' }) evs cend := by
        intro h
        refine splits_bind (D' := PKind.der tags .flowSeq)
          (hnode false false (c.push .flowSequenceEntry) .flowSequenceEntry c.stk evs cend hn hend ht rfl h) ?_ ?_
        · intro k' ev2 hl hrun
          exact ih ev2.length (by omega) .flowSeq { c with st := .flowSequenceEntry, pos := k' } q K ev2 cend
            (Nat.le_refl _) hend ht hq (runs_step hrun hend (by simp))
        · intro t1 e1 t2 e2 h1 h2
          exact items_tail (.item h1) h2
      cases d with
      | key =>
        refine splits_event (D := PKind.der tags .pairKey) (ts := [.key]) h (seg_one.mpr ⟨hd, rfl⟩) ?_ ?_
        · intro ev2 hl hrun
          exact ih ev2.length (by omega) .pairKey { c with st := .flowSequenceEntryMappingKey, pos := c.pos + 1 } q K ev2 cend
            (Nat.le_refl _) hend ht hq (runs_step hrun hend (by simp))
        · rintro t2 e2 ⟨ts', ev', rfl, rfl, hg⟩
          exact ⟨_, _, rfl, rfl, hg⟩
      | flowSequenceEnd =>
        simp only at h
        rw [pop_inv' (c := c.next) hq] at h
        exact splits_one (next := fun k' => { c with st := q, stk := K, pos := k' }) h (seg_one.mpr ⟨hd, rfl⟩)
          ⟨[], [], rfl, rfl, .itemsNil⟩
      | _ => exact hnd h
  have hpair : SoundK f fuel tags n .flowPair := by
    intro c q K evs cend hn hend ht hq h
    simp only [PKind.comp, aflowPair] at h
    cases hd : f c.pos with
    | none => rw [hd] at h; exact (thn_none h).elim
    | some d =>
      rw [hd] at h
      have hnd : Thn f fuel (anode f false false (c.push .flowMappingEmptyValue)) evs cend →
          Splits f fuel (PKind.der tags .flowPair) c.pos (fun k' => { c with st := q, stk := K, pos := k' }) evs cend := by
        intro h
        refine splits_bind (D' := fun t e => ∃ e', e = absent :: e' ∧ PKind.der tags .flowMap t e')
          (hnode false false (c.push .flowMappingEmptyValue) .flowMappingEmptyValue c.stk evs cend hn hend ht rfl h) ?_ ?_
        · intro k' ev2 hl hrun
          have hstep := runs_step hrun hend (by simp)
          simp only [AC.push, astep, aflowEmpty] at hstep
          cases hd' : f k' with
          | none => rw [hd'] at hstep; exact (thn_none hstep).elim
          | some d' =>
            rw [hd'] at hstep
            refine splits_event (D := PKind.der tags .flowMap) (ts := []) hstep (k' := k') rfl ?_ ?_
            · intro ev3 hl' hrun'
              exact ih ev3.length (by omega) .flowMap { c with st := .flowMappingKey, pos := k' } q K ev3 cend
                (Nat.le_refl _) hend ht hq (runs_step hrun' hend (by simp))
            · intro t2 e2 h2; exact ⟨e2, rfl, h2⟩
        · rintro t1 e1 t2 e2 h1 ⟨e', rfl, h2⟩
          have := pairs_tail (.pairKey h1) h2
          rw [List.append_assoc] at this
          exact this
      cases d with
      | key =>
        have h1 := sound_opt (hnode false false) (c := c.next) hn hend ht h
        refine splits_tok hd (splits_bind (D' := PKind.der tags .flowVal) (D'' := fun t e => ∃ t1 e1 t2 e2, t = t1 ++ t2 ∧ e = e1 ++ e2 ∧
          GI tags (.opt false false) t1 e1 ∧ PKind.der tags .flowVal t2 e2) h1 ?_ ?_) ?_
        · intro k' ev2 hl hrun
          exact ih ev2.length (by omega) .flowVal { c with st := .flowMappingValue, pos := k' } q K ev2 cend
            (Nat.le_refl _) hend ht hq (runs_step hrun hend (by simp))
        · intro t1 e1 t2 e2 h1 h2; exact ⟨t1, e1, t2, e2, rfl, rfl, h1, h2⟩
        · rintro t e ⟨t1, e1, t2, e2, rfl, rfl, h1, tx, ex, tr, er, rfl, rfl, h2, h3⟩
          have := pairs_tail (.pair h1 h2) h3
          simp only [List.cons_append, List.append_assoc] at this ⊢
          exact this
      | flowMappingEnd =>
        simp only at h
        rw [pop_inv' (c := c.next) hq] at h
        exact splits_one (next := fun k' => { c with st := q, stk := K, pos := k' }) h (seg_one.mpr ⟨hd, rfl⟩)
          ⟨[], [], rfl, rfl, .fpairsNil⟩
      | _ => exact hnd h
  cases kind with
  | node b i => exact hnode b i
  | indentless1 => exact hindent1
  | flowItem => exact hitem
  | flowPair => exact hpair
  | indentless =>
    intro c q K evs cend hn hend ht hq h
    by_cases hf : f c.pos = some .blockEntry
    · refine splits_mono (hindent1 c q K evs cend hn hend ht hq ?_) fun t e h => h.2
      simp only [PKind.comp]
      rw [if_pos hf]; exact h
    · simp only [PKind.comp, aindentless] at h
      cases hd : f c.pos with
      | none => rw [hd] at h; exact (thn_none h).elim
      | some d =>
        have : Thn f fuel (c.pop .sequenceEnd) evs cend := by
          rw [hd] at h hf
          cases d <;> first | exact h | exact absurd rfl hf
        rw [pop_inv' hq] at this
        exact splits_one (next := fun k' => { c with st := q, stk := K, pos := k' }) this (ts := []) rfl ⟨[], rfl, .entriesNil⟩
  | blockSeq =>
    intro c q K evs cend hn hend ht hq h
    simp only [PKind.comp, ablockSeq] at h
    cases hd : f c.pos with
    | none => rw [hd] at h; exact (thn_none h).elim
    | some d =>
      rw [hd] at h
      cases d with
      | blockEntry =>
        have h1 := sound_opt (hnode true false) (c := c.next) hn hend ht h
        refine splits_tok hd (splits_bind (D' := PKind.der tags .blockSeq) (D'' := fun t e => ∃ t1 e1 t2 e2, t = t1 ++ t2 ∧ e = e1 ++ e2 ∧
          GI tags (.opt true false) t1 e1 ∧ PKind.der tags .blockSeq t2 e2) h1 ?_ ?_) ?_
        · intro k' ev2 hl hrun
          exact ih ev2.length (by omega) .blockSeq { c with st := .blockSequenceEntry, pos := k' } q K ev2 cend
            (Nat.le_refl _) hend ht hq (runs_step hrun hend (by simp))
        · intro t1 e1 t2 e2 h1 h2; exact ⟨t1, e1, t2, e2, rfl, rfl, h1, h2⟩
        · rintro t e ⟨t1, e1, t2, e2, rfl, rfl, h1, ts', ev', rfl, rfl, h2⟩
          exact ⟨.blockEntry :: t1 ++ ts', e1 ++ ev', by simp, by simp, .entriesCons h1 h2⟩
      | blockEnd =>
        simp only at h
        rw [pop_inv' (c := c.next) hq] at h
        exact splits_one (next := fun k' => { c with st := q, stk := K, pos := k' }) h (seg_one.mpr ⟨hd, rfl⟩)
          ⟨[], [], rfl, rfl, .entriesNil⟩
      | _ => exact (thn_none h).elim
  | blockKey =>
    intro c q K evs cend hn hend ht hq h
    simp only [PKind.comp, ablockKey] at h
    cases hd : f c.pos with
    | none => rw [hd] at h; exact (thn_none h).elim
    | some d =>
      rw [hd] at h
      cases d with
      | key =>
        have h1 := sound_opt (hnode true true) (c := c.next) hn hend ht h
        refine splits_tok hd (splits_bind (D' := PKind.der tags .blockVal) (D'' := fun t e => ∃ t1 e1 t2 e2, t = t1 ++ t2 ∧ e = e1 ++ e2 ∧
          GI tags (.opt true true) t1 e1 ∧ PKind.der tags .blockVal t2 e2) h1 ?_ ?_) ?_
        · intro k' ev2 hl hrun
          exact ih ev2.length (by omega) .blockVal { c with st := .blockMappingValue, pos := k' } q K ev2 cend
            (Nat.le_refl _) hend ht hq (runs_step hrun hend (by simp))
        · intro t1 e1 t2 e2 h1 h2; exact ⟨t1, e1, t2, e2, rfl, rfl, h1, h2⟩
        · rintro t e ⟨t1, e1, t2, e2, rfl, rfl, h1, tx, ex, ts', ev', rfl, rfl, h2, h3⟩
          exact ⟨.key :: t1 ++ tx ++ ts', e1 ++ ex ++ ev', by simp, by simp, .pairsCons h1 h2 h3⟩
      | blockEnd =>
        simp only at h
        rw [pop_inv' (c := c.next) hq] at h
        exact splits_one (next := fun k' => { c with st := q, stk := K, pos := k' }) h (seg_one.mpr ⟨hd, rfl⟩)
          ⟨[], [], rfl, rfl, .pairsNil⟩
      | _ => exact (thn_none h).elim
  | blockVal =>
    intro c q K evs cend hn hend ht hq h
    have h' : Thn f fuel (avalue f true true [.key, .value, .blockEnd] .blockMappingKey c) evs cend := h
    have h1 := sound_value (hnode true true) hn hend ht h'
    refine splits_bind (D' := PKind.der tags .blockKey) h1 ?_ ?_
    · intro k' ev2 hl hrun
      exact ih ev2.length (by omega) .blockKey { c with st := .blockMappingKey, pos := k' } q K ev2 cend
        (Nat.le_refl _) hend ht hq (runs_step hrun hend (by simp))
    · rintro t1 e1 t2 e2 h1 ⟨ts', ev', rfl, rfl, h2⟩
      exact ⟨t1, e1, ts', ev', by simp, by simp, h1, h2⟩
  | flowSeq =>
    intro c q K evs cend hn hend ht hq h
    simp only [PKind.comp, aflowSeq] at h
    cases hd : f c.pos with
    | none => rw [hd] at h; exact (thn_none h).elim
    | some d =>
      rw [hd] at h
      cases d with
      | flowSequenceEnd =>
        simp only at h
        rw [pop_inv' (c := c.next) hq] at h
        exact splits_one (next := fun k' => { c with st := q, stk := K, pos := k' }) h (seg_one.mpr ⟨hd, rfl⟩)
          (.inl ⟨rfl, rfl⟩)
      | flowEntry =>
        refine splits_tok hd (hitem c.next q K evs cend hn hend ht hq h) ?_
        rintro t e ⟨ts', ev', rfl, rfl, hg⟩
        exact .inr ⟨ts', ev', rfl, rfl, hg⟩
      | _ => exact (thn_none h).elim
  | flowMap =>
    intro c q K evs cend hn hend ht hq h
    simp only [PKind.comp, aflowMap] at h
    cases hd : f c.pos with
    | none => rw [hd] at h; exact (thn_none h).elim
    | some d =>
      rw [hd] at h
      cases d with
      | flowMappingEnd =>
        simp only at h
        rw [pop_inv' (c := c.next) hq] at h
        exact splits_one (next := fun k' => { c with st := q, stk := K, pos := k' }) h (seg_one.mpr ⟨hd, rfl⟩)
          (.inl ⟨rfl, rfl⟩)
      | flowEntry =>
        refine splits_tok hd (hpair c.next q K evs cend hn hend ht hq h) ?_
        rintro t e ⟨ts', ev', rfl, rfl, hg⟩
        exact .inr ⟨ts', ev', rfl, rfl, hg⟩
      | _ => exact (thn_none h).elim
  | pairVal =>
    intro c q K evs cend hn hend ht hq h
    have h' : Thn f fuel (avalue f false false [.flowEntry, .flowSequenceEnd] .flowSequenceEntryMappingEnd c) evs cend := h
    have h1 := sound_value (hnode false false) hn hend ht h'
    refine splits_bind (D' := fun t e => ∃ e', e = .mappingEnd :: e' ∧ PKind.der tags .flowSeq t e') h1 ?_ ?_
    · intro k' ev2 hl hrun
      have hstep := runs_step hrun hend (by simp)
      simp only [astep, apairEnd] at hstep
      cases hd' : f k' with
      | none => rw [hd'] at hstep; exact (thn_none hstep).elim
      | some d' =>
        rw [hd'] at hstep
        refine splits_event (D := PKind.der tags .flowSeq) (ts := []) hstep (k' := k') rfl ?_ ?_
        · intro ev3 hl' hrun'
          exact ih ev3.length (by omega) .flowSeq { c with st := .flowSequenceEntry, pos := k' } q K ev3 cend
            (Nat.le_refl _) hend ht hq (runs_step hrun' hend (by simp))
        · intro t2 e2 h2; exact ⟨e2, rfl, h2⟩
    · rintro t1 e1 t2 e2 h1 ⟨e', rfl, h2⟩
      exact ⟨t1, e1, t2, e', rfl, rfl, h1, h2⟩
  | flowVal =>
    intro c q K evs cend hn hend ht hq h
    have h' : Thn f fuel (avalue f false false [.flowEntry, .flowMappingEnd] .flowMappingKey c) evs cend := h
    have h1 := sound_value (hnode false false) hn hend ht h'
    refine splits_bind (D' := PKind.der tags .flowMap) h1 ?_ ?_
    · intro k' ev2 hl hrun
      exact ih ev2.length (by omega) .flowMap { c with st := .flowMappingKey, pos := k' } q K ev2 cend
        (Nat.le_refl _) hend ht hq (runs_step hrun hend (by simp))
    · intro t1 e1 t2 e2 h1 h2
      exact ⟨t1, e1, t2, e2, rfl, rfl, h1, h2⟩
  | pairKey =>
    intro c q K evs cend hn hend ht hq h
    simp only [PKind.comp, apairKey] at h
    have hval : ∀ k' ev2, ev2.length < evs.length →
        Runs f fuel { c with st := .flowSequenceEntryMappingValue, pos := k' } ev2 cend →
        Splits f fuel (PKind.der tags .pairVal) k' (fun k' => { c with st := q, stk := K, pos := k' }) ev2 cend := by
      intro k' ev2 hl hrun
      exact ih ev2.length (by omega) .pairVal { c with st := .flowSequenceEntryMappingValue, pos := k' } q K ev2 cend
        (Nat.le_refl _) hend ht hq (runs_step hrun hend (by simp))
    cases hd : f c.pos with
    | none => rw [hd] at h; exact (thn_none h).elim
    | some d =>
      rw [hd] at h
      have hnd : Thn f fuel (anode f false false (c.push .flowSequenceEntryMappingValue)) evs cend →
          Splits f fuel (PKind.der tags .pairKey) c.pos (fun k' => { c with st := q, stk := K, pos := k' }) evs cend := by
        intro h
        refine splits_bind (D' := PKind.der tags .pairVal)
          (hnode false false (c.push .flowSequenceEntryMappingValue) .flowSequenceEntryMappingValue c.stk evs cend hn hend ht rfl h) hval ?_
        rintro t1 e1 t2 e2 h1 ⟨tx, ex, tr, er, rfl, rfl, h2, h3⟩
        rcases h3 with ⟨rfl, rfl⟩ | ⟨ts', ev', rfl, rfl, hg⟩
        · exact ⟨t1 ++ tx, e1 ++ ex ++ [.mappingEnd], by simp, by simp, by simpa using Gram.itemsOne (Gram.itemPair h1 h2)⟩
        · refine ⟨t1 ++ tx ++ .flowEntry :: ts', e1 ++ ex ++ .mappingEnd :: ev', by simp, by simp, ?_⟩
          have := Gram.itemsCons (Gram.itemPair h1 h2) hg
          simp only [List.cons_append, List.append_assoc] at this ⊢
          exact this
      have hlost : ∀ d', f c.pos = some d' → d' = .value ∨ d' = .flowEntry →
          Thn f fuel (c.next.to .flowSequenceEntryMappingValue absent) evs cend →
          Splits f fuel (PKind.der tags .pairKey) c.pos (fun k' => { c with st := q, stk := K, pos := k' }) evs cend := by
        intro d' hd' hor h
        refine splits_event (D := PKind.der tags .pairVal) (ts := [d']) h (seg_one.mpr ⟨hd', rfl⟩) (fun ev2 hl hrun => hval _ ev2 hl hrun) ?_
        rintro t2 e2 ⟨tx, ex, tr, er, rfl, rfl, h2, h3⟩
        rcases h3 with ⟨rfl, rfl⟩ | ⟨ts', ev', rfl, rfl, hg⟩
        · exact ⟨d' :: tx, absent :: ex ++ [.mappingEnd], by simp, by simp, by simpa using Gram.itemsOne (Gram.itemPairLost rfl hor h2)⟩
        · refine ⟨d' :: tx ++ .flowEntry :: ts', absent :: ex ++ .mappingEnd :: ev', by simp, by simp, ?_⟩
          have := Gram.itemsCons (Gram.itemPairLost rfl hor h2) hg
          simp only [List.cons_append, List.append_assoc] at this ⊢
          exact this
      cases d with
      | flowSequenceEnd =>
        obtain ⟨e', c', he, es, h1, h2⟩ := thn_some h
        simp only [AC.to, Option.some.injEq, Prod.mk.injEq] at he
        obtain ⟨rfl, rfl⟩ := he
        obtain ⟨ts, ev1, ev2, k', he2, hne, hs, ⟨tx, ex, tr, er, rfl, rfl, hx, hr⟩, hrun⟩ := hval c.pos es (by rw [h1]; simp) h2
        cases hx with
        | value hx => rw [List.cons_append, seg_cons, hd] at hs; cases hs.1
        | noValue =>
          rcases hr with ⟨rfl, rfl⟩ | ⟨ts', ev', rfl, rfl, hg⟩
          · refine ⟨[.flowSequenceEnd], [absent, absent, .mappingEnd, .sequenceEnd], ev2, k', ?_, by simp, hs, ?_, hrun⟩
            · rw [h1, he2]; rfl
            · exact ⟨[], [absent, absent, .mappingEnd], rfl, rfl, .itemsEmptyKey rfl⟩
          · rw [List.nil_append, List.cons_append, seg_cons, hd] at hs; cases hs.1
      | value => exact hlost _ hd (.inl rfl) h
      | flowEntry => exact hlost _ hd (.inr rfl) h
      | _ => exact hnd h

/-- Runs of any length. -/
theorem sound (n : Nat) : ∀ kind, SoundK f fuel tags n kind := by
  induction n using Nat.strongRecOn with
  | ind n ih => exact sound_step ih

/-! ### Documents -/

theorem adirs_inv {fuel : Nat} {k m : Nat} {v0 v : Option Version} {ts0 ts tbl : List TagDir}
    (h : adirs f fuel v0 ts0 ts0 k = some (v, ts, tbl, m)) (hok : ∀ w, v0 = some w → w = ⟨1, 1⟩ ∨ w = ⟨1, 2⟩)
    (hnd : (ts0.map (·.handle)).Nodup) :
    ∃ ds, Seg f k ds m ∧ (∀ d ∈ ds, IsDir d) ∧ v0.toList ++ versionsOf ds = v.toList ∧
      (∀ w, v = some w → w = ⟨1, 1⟩ ∨ w = ⟨1, 2⟩) ∧ ts = ts0 ++ tagsOf ds ∧ tbl = ts ∧ (ts.map (·.handle)).Nodup := by
  induction fuel generalizing k v0 ts0 with
  | zero => cases h
  | succ fuel ih =>
    unfold adirs at h
    cases hd : f k with
    | none => rw [hd] at h; cases h
    | some d =>
      rw [hd] at h
      have base : some (v0, ts0, ts0, k) = some (v, ts, tbl, m) → ∃ ds, Seg f k ds m ∧ (∀ d ∈ ds, IsDir d) ∧
          v0.toList ++ versionsOf ds = v.toList ∧
          (∀ w, v = some w → w = ⟨1, 1⟩ ∨ w = ⟨1, 2⟩) ∧ ts = ts0 ++ tagsOf ds ∧ tbl = ts ∧ (ts.map (·.handle)).Nodup := by
        intro h
        cases h
        exact ⟨[], rfl, by simp, by simp [versionsOf], hok, by simp [tagsOf], rfl, hnd⟩
      cases d with
      | versionDirective w =>
        simp only at h
        split at h
        next => cases h
        next hn =>
          split at h
          next => cases h
          next hw =>
            have hv0 : v0 = none := by cases v0 <;> simp at hn ⊢
            subst hv0
            obtain ⟨ds, h1, h2, h3, h4⟩ := ih h (by
              rintro w' he; cases he
              obtain ⟨a, b⟩ := w
              simp only [not_or, Decidable.not_not, not_and] at hw
              obtain ⟨rfl, hb⟩ := hw
              by_cases h1 : b = 1
              · subst h1; exact .inl rfl
              · rw [hb h1]; exact .inr rfl) hnd
            refine ⟨.versionDirective w :: ds, ⟨hd, h1⟩, ?_, h3, h4⟩
            intro d hd
            rcases List.mem_cons.mp hd with rfl | hd
            · exact .inl ⟨w, rfl⟩
            · exact h2 d hd
      | tagDirective w =>
        simp only at h
        split at h
        next => cases h
        next hn =>
          obtain ⟨ds, h1, h2, h3, h4, h5, h6⟩ := ih h hok (by
            rw [List.map_append, List.nodup_append]
            refine ⟨hnd, by simp, ?_⟩
            rintro a ha b hb rfl
            simp only [List.map_cons, List.map_nil, List.mem_singleton] at hb
            subst hb
            exact hn (any_handle.mpr ha))
          refine ⟨.tagDirective w :: ds, ⟨hd, h1⟩, ?_, h3, h4, ?_, h6⟩
          · intro d hd
            rcases List.mem_cons.mp hd with rfl | hd
            · exact .inr ⟨w, rfl⟩
            · exact h2 d hd
          · rw [h5, List.append_assoc]; rfl
      | _ => exact base h

theorem askip_inv {fuel k m : Nat} (h : askip f fuel k = some m) : ∃ j, Seg f k (List.replicate j .documentEnd) m := by
  induction fuel generalizing k with
  | zero => cases h
  | succ fuel ih =>
    unfold askip at h
    cases hd : f k with
    | none => rw [hd] at h; cases h
    | some d =>
      rw [hd] at h
      cases d with
      | documentEnd =>
        obtain ⟨j, hj⟩ := ih h
        exact ⟨j + 1, by rw [List.replicate_succ]; exact ⟨hd, hj⟩⟩
      | _ => cases h; exact ⟨0, rfl⟩

theorem askip_stay {fuel k m : Nat} {d : TokData} (h : askip f fuel k = some m) (hd : f k = some d) (hne : d ≠ .documentEnd) :
    m = k := by
  cases fuel with
  | zero => cases h
  | succ fuel =>
    unfold askip at h
    rw [hd] at h
    cases d with
    | documentEnd => exact absurd rfl hne
    | _ => cases h; rfl

theorem docEnd_inv {m : Nat} {tb : List TagDir} {evs : List EvData} {cend : AC} (hend : cend.st = .done)
    (h : Runs f fuel ⟨.documentEnd, [], m, tb⟩ evs cend) :
    ∃ k m' er, evs = .documentEnd (k == 0) :: er ∧ Seg f m (List.replicate k .documentEnd) m' ∧
      Thn f fuel (aexplicit f fuel ⟨.documentStart, [], m', []⟩) er cend := by
  obtain ⟨e, c, he, es, h1, h2⟩ := thn_some (runs_step h hend (by simp))
  simp only [astep, adocEnd] at he
  cases hd : f m with
  | none => rw [hd] at he; cases he
  | some d =>
    rw [hd] at he
    by_cases hde : d = .documentEnd
    · subst hde
      cases he
      have h3 := runs_step h2 hend (by simp)
      simp only [astep] at h3
      cases hk : askip f fuel (m + 1) with
      | none => rw [hk] at h3; exact (thn_none h3).elim
      | some m' =>
        rw [hk] at h3
        obtain ⟨j, hj⟩ := askip_inv hk
        exact ⟨j + 1, m', es, h1, by rw [List.replicate_succ]; exact ⟨hd, hj⟩, h3⟩
    · have he' : e = .documentEnd true ∧ c = ⟨.documentStart, [], m, []⟩ := by
        cases d <;> first | exact absurd rfl hde | (cases he; exact ⟨rfl, rfl⟩)
      obtain ⟨rfl, rfl⟩ := he'
      have h3 := runs_step h2 hend (by simp)
      simp only [astep] at h3
      cases hk : askip f fuel m with
      | none => rw [hk] at h3; exact (thn_none h3).elim
      | some m' =>
        rw [hk] at h3
        have := askip_stay hk hd hde
        subst this
        exact ⟨0, m', es, h1, rfl, h3⟩

theorem docs_sound (n : Nat) : ∀ {m : Nat} {st : PState} {evs : List EvData} {cend : AC}, evs.length ≤ n → cend.st = .done →
    Thn f fuel (aexplicit f fuel ⟨st, [], m, []⟩) evs cend →
    ∃ ts k', Seg f m ts k' ∧ Docs .implemented ts evs ∧ cend = ⟨.done, [], k', []⟩ := by
  induction n with
  | zero =>
    intro m st evs cend hn hend h
    obtain ⟨e, c, he, es, h1, h2⟩ := thn_some h
    rw [h1] at hn; simp at hn
  | succ n ih =>
    intro m st evs cend hn hend h
    unfold aexplicit at h
    cases hd : f m with
    | none => simp only [hd] at h; exact (thn_none h).elim
    | some d =>
      simp only [hd] at h
      by_cases hse : d = .streamEnd
      · subst hse
        obtain ⟨e, c, he, es, h1, h2⟩ := thn_some h
        cases he
        cases es with
        | nil =>
          have : _ = cend := h2
          exact ⟨[.streamEnd], m + 1, seg_one.mpr ⟨hd, rfl⟩, by rw [h1]; exact .done, this.symm⟩
        | cons e es => obtain ⟨c', hc, _⟩ := h2; cases hc
      · have h' : Thn f fuel (match adirs f fuel none [] [] m with
            | none => none
            | some (v, ts, tbl, k) =>
              if f k = some .documentStart then
                some (.documentStart v ts false,
                  ({ st := .documentContent, stk := [.documentEnd], pos := k + 1, tags := addPredeclared tbl } : AC))
              else none) evs cend := by
          cases d <;> first | exact absurd rfl hse | exact h
        cases hdirs : adirs f fuel none [] [] m with
        | none => rw [hdirs] at h'; exact (thn_none h').elim
        | some y =>
          obtain ⟨v, tags, tbl, k⟩ := y
          rw [hdirs] at h'
          simp only at h'
          split at h'
          next hds =>
            obtain ⟨ds, s1, hall, hvs, hok, hts, htbl, hnd⟩ := adirs_inv hdirs (by simp) (by simp)
            subst htbl
            rw [addPredeclared_table] at h'
            obtain ⟨e, c, he, es, h1, h2⟩ := thn_some h'
            cases he
            have hstep := runs_step h2 hend (by simp)
            have hsp : Splits f fuel (GI tbl (.opt true false)) (k + 1) (fun k' => ⟨.documentEnd, [], k', table tbl⟩) es cend := by
              simp only [astep] at hstep
              cases hk : f (k + 1) with
              | none => rw [hk] at hstep; exact (thn_none hstep).elim
              | some d =>
                rw [hk] at hstep
                simp only at hstep
                split at hstep
                · exact splits_one (ts := []) (next := fun k' => ⟨.documentEnd, [], k', table tbl⟩) hstep rfl .missing
                · exact splits_mono (sound es.length (.node true false) ⟨.documentContent, [.documentEnd], k + 1, table tbl⟩
                    .documentEnd [] es cend (Nat.le_refl _) hend rfl rfl hstep) fun t e hg => .present hg
            obtain ⟨w, ev1, ev2, k', he, hne, hs, hg, hr⟩ := hsp
            obtain ⟨j, m', er, he2, hs2, hth⟩ := docEnd_inv hend hr
            have hl : er.length ≤ n := by
              rw [h1, he, he2] at hn
              simp only [List.length_cons, List.length_append] at hn
              omega
            obtain ⟨ts, k'', hs3, hD, hcend⟩ := ih hl hend hth
            have := Docs.doc (v := .implemented) (version := v) (tags := tbl) (ds := ds) j
              ⟨hall, hvs, hok, by rw [hts]; rfl, hnd⟩ hg hD
            refine ⟨_, k'', ?_, by rw [h1, he, he2]; exact this, hcend⟩
            simp only [List.append_assoc]
            exact seg_append.mpr ⟨k, s1, hds, seg_append.mpr ⟨k', hs, seg_append.mpr ⟨m', hs2, hs3⟩⟩⟩
          next => exact (thn_none h').elim

/-- Every accepting run is a word of the grammar as implemented. -/
theorem stream_sound {evs : List EvData} {cend : AC} (hend : cend.st = .done)
    (h : Runs f fuel ⟨.streamStart, [], 0, []⟩ evs cend) :
    ∃ ts k', Seg f 0 ts k' ∧ Stream .implemented ts evs ∧ cend = ⟨.done, [], k', []⟩ := by
  obtain ⟨e, c, he, es, h1, h2⟩ := thn_some (runs_step h hend (by simp))
  simp only [astep] at he
  cases hd : f 0 with
  | none => rw [hd] at he; cases he
  | some d =>
    rw [hd] at he
    cases d with
    | streamStart enc =>
      cases he
      have hstep := runs_step h2 hend (by simp)
      simp only [astep, AC.next] at hstep
      cases hd1 : f (0 + 1) with
      | none => rw [hd1] at hstep; exact (thn_none hstep).elim
      | some d1 =>
        rw [hd1] at hstep
        simp only at hstep
        split at hstep
        next hsd =>
          obtain ⟨ts, k', hs, hD, hc⟩ := docs_sound es.length (Nat.le_refl _) hend hstep
          exact ⟨.streamStart enc :: ts, k', ⟨hd, hs⟩, by rw [h1]; exact .explicit enc hD, hc⟩
        next hsd =>
          split at hstep
          next => exact (thn_none hstep).elim
          next =>
            obtain ⟨e, c, he, es', h3, h4⟩ := thn_some hstep
            cases he
            have hstep := runs_step h4 hend (by simp)
            simp only [astep, addPredeclared_table] at hstep
            obtain ⟨w, ev1, ev2, k', he, hne, hs, hg, hr⟩ := sound es'.length (.node true false)
              ⟨.blockNode, [.documentEnd], 0 + 1, table []⟩ .documentEnd [] es' cend (Nat.le_refl _) hend rfl rfl hstep
            obtain ⟨j, m', er, he2, hs2, hth⟩ := docEnd_inv hend hr
            obtain ⟨ts, k'', hs3, hD, hcend⟩ := docs_sound er.length (Nat.le_refl _) hend hth
            have := Stream.implicit (v := .implemented) enc j hg hD
            refine ⟨_, k'', ?_, by rw [h1, h3, he, he2]; exact this, hcend⟩
            simp only [List.append_assoc, List.cons_append]
            exact ⟨hd, seg_append.mpr ⟨k', hs, seg_append.mpr ⟨m', hs2, hs3⟩⟩⟩
    | _ => cases he

end LibYaml
