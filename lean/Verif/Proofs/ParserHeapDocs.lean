import Verif.Proofs.ParserHeapDirs
import Verif.Spec.EmitterHeap

/-!
# The parser on the heap: streams and documents
-/

namespace LibYaml

open Spec

set_option linter.unusedSectionVars false

variable {ρ σ α α' β β' : Type} [SrcMem ρ] [SrcLink ρ σ] [Strict]

/-- No condition on the directives. -/
abbrev AnyDirs : List TagDir → Prop := fun _ => True

section
variable {A : Prop} {base : Nat → Option Obj} {J : List TagDir → Prop} {P : HPS ρ → PS σ → Blocks → Prop} {c : Option (HToken × Token)} {l : Blocks}
  {Q : β' → β → HPS ρ → PS σ → Blocks → Prop}

/-! ### More rules -/

theorem hrel_ex {ι : Sort*} {P : ι → HPS ρ → PS σ → Blocks → Prop} {m : HP ρ β'} {v : PM σ β} (h : ∀ i, HRel A base (P i) m v Q) :
    HRel A base (fun p s b => ∃ i, P i p s b) m v Q :=
  fun p s b fr hp ⟨i, hi⟩ e hu hf => h i p s b fr hp hi e hu hf

theorem hrel_and {φ : Prop} {m : HP ρ β'} {v : PM σ β} (h : φ → HRel A base P m v Q) : HRel A base (fun p s b => φ ∧ P p s b) m v Q :=
  fun p s b fr hp ⟨i, hi⟩ e hu hf => h i p s b fr hp hi e hu hf

theorem hrel_mallocB {o : Obj} {k' : Ptr → HP ρ β'} {v : PM σ β} (h0 : ¬ A → HRel A base (St J c l) (k' none) v Q)
    (h1 : ∀ a, HRel A base (St J c ((a, o) :: l)) (k' (some a)) v Q) : HRel A base (St J c l) (hlift (malloc o) >>= k') v Q := by
  refine hrel_lift fun p s b fr h hst e => ?_
  refine hw_malloc e (fun h' e' ha => ⟨_, b, hst, e', h0 ha⟩) (fun h' a e' => ?_)
  obtain ⟨b0, g1, g2, g3⟩ := hst
  exact ⟨_, (a, o) :: b, ⟨b0, g1, g2, g3.cons _⟩, e', h1 a⟩

theorem hrel_freeB {m : HM Unit} {l' : Blocks} {k' : Unit → HP ρ β'} {v : PM σ β} (hm : Frees m l') (hl : l.Perm (l' ++ L))
    (h1 : HRel A base (St J c L) (k' ()) v Q) : HRel A base (St J c l) (hlift m >>= k') v Q := by
  refine hrel_lift fun p s b fr h hst e => ?_
  obtain ⟨b0, g1, g2, g3⟩ := hst
  have g4 := g3.trans (hl.append_right b0)
  exact hm A base _ ((L ++ b0) ++ fr) h _ e (by blocks_by g4) fun h' e' => ⟨_, L ++ b0, ⟨b0, g1, g2, List.Perm.refl _⟩, e', h1⟩

/-- A program that only reads blocks of local variables. -/
theorem hrel_readB {m : HM α} {a : α} {k' : α → HP ρ β'} {v : PM σ β}
    (hm : ∀ (bs : Blocks) (h : Heap) (R : α → Heap → Prop), Ext A base bs h → (∀ z ∈ l, z ∈ bs) → R a h → hw m R h)
    (h1 : HRel A base (St J c l) (k' a) v Q) : HRel A base (St J c l) (hlift m >>= k') v Q := by
  refine hrel_lift fun p s b fr h hst e => ?_
  refine hm _ h _ e (fun z hz => ?_) ⟨_, b, hst, e, h1⟩
  obtain ⟨b0, g1, g2, g3⟩ := hst
  exact List.mem_append_left _ (g3.mem_iff.mpr (List.mem_append_left _ hz))

theorem frees_str {o : Option (List UInt8)} {p : Ptr} {x : Blocks} (h : StrAt o p x) : Frees (free p) x :=
  fun _ _ _ _ _ _ e hp hQ => hw_free_str e h hp hQ

theorem frees_version {o : Option Version} {p : Ptr} {x : Blocks} (h : VersionAt o p x) : Frees (free p) x :=
  fun _ _ _ _ _ _ e hp hQ => hw_free_version e h hp hQ

/-- The current token is still there. -/
theorem hrel_peekC {H : HSrc ρ} {S : TokSrc σ} {ht : HToken} {t : Token} {clean : HM Unit} {k' : HToken → HP ρ β'} {k : Token → PM σ β}
    (h : HRel A base (St J (some (ht, t)) l) (k' ht) (k t) Q) :
    HRel A base (St J (some (ht, t)) l) (orFree (hPeek H) clean >>= k') (peek (cutSrc S) >>= k) Q := by
  intro p s b fr hp hst e hu hf
  have hst' := hst
  obtain ⟨b0, g1, g2, g3⟩ := hst
  obtain ⟨c1, c2⟩ := g2.1 _ rfl
  simp only at c1 c2
  have l1 : orFree (hPeek H) clean p hp = .ok ((.ok ht, p), hp) := by
    unfold orFree hPeek
    simp only [c1]
  have l2 : (peek (cutSrc S) >>= k) s = k t s := by
    rw [pm_bind]
    unfold peek
    simp only [c2]
  rw [l2] at hu hf ⊢
  rw [hw_hp_bind]
  exact hw_run l1 (h p s b fr hp hst' e hu hf)

theorem hrel_weaken {m : HP ρ β'} {v : PM σ β} (h : HRel A base (St AnyDirs c l) m v Q) : HRel A base (St J c l) m v Q :=
  hrel_pre h fun _ _ _ ⟨b0, h1, h2, h3⟩ => ⟨b0, h1, ⟨h2.1, trivial⟩, h3⟩

theorem hrel_appendB {d : TagDir} {dup : Bool} {mark : Mark} (hd : CDir d) {clean : HM Unit} (hl : Frees clean l) {hb pb : List UInt8}
    (h1 : hb = textBytes d.handle) (h2 : pb = textBytes d.pfx) {k' : Unit → HP ρ β'} {k : Unit → PM σ β}
    (h : HRel A base (St AnyDirs c l) (k' ()) (k ()) Q) :
    HRel A base (St AnyDirs c l) (orFree (hAppendTag hb pb dup mark) clean >>= k') (appendTagM d dup mark >>= k) Q := by
  subst h1 h2
  exact hrel_orFreeB (hrel_appendTag hd fun _ _ _ _ => trivial) hl fun _ _ => h

/-! ### Directives -/

/-- The directives that `yaml_parser_process_directives` returns. -/
def FoundAt (ds : List TagDir) (s : HStk) (b : Blocks) : Prop := (ds = [] ∧ s = {} ∧ b = []) ∨ (ds ≠ [] ∧ DirStk ds s b)

theorem FoundAt.loc {ds : List TagDir} {s : HStk} {b : Blocks} (h : FoundAt ds s b) : LocAt ds s b := h.imp id And.right

theorem FoundAt.tags {ds : List TagDir} {s : HStk} {b : Blocks} (h : FoundAt ds s b) : TagsAt (ds.map dirText) s b := by
  unfold TagsAt
  rcases h with ⟨rfl, rfl, rfl⟩ | ⟨h0, a, n, vs, x, rfl, _, hd, rfl⟩
  · rw [if_pos (by rfl)]; exact ⟨rfl, rfl⟩
  · rw [if_neg (by simpa using h0)]; exact ⟨a, n, vs, x, rfl, hd, rfl⟩

theorem default_dirs : CDir ⟨lit ['!'], lit ['!']⟩ ∧
    CDir ⟨lit ['!', '!'], lit ['t','a','g',':','y','a','m','l','.','o','r','g',',','2','0','0','2',':']⟩ := by
  unfold CDir AnchorText CText lit
  decide

theorem hrel_processKeep {H : HSrc ρ} {S : TokSrc σ} (hS : Link H S) (fuel : Nat) : HRel A base (St AnyDirs c []) (hProcessDirectives H fuel true) (processDirectives (cutSrc S) fuel)
    (fun r' r p s b => ∃ ver ds x y, (VersionAt ver r'.1 x ∧ FoundAt ds r'.2 y ∧ r = (ver, ds.map cutDir) ∧ DirsOk ds) ∧ St AnyDirs none (x ++ y) p s b) := by
  unfold hProcessDirectives processDirectives
  refine hrel_lift fun p s b fr h hst e => ?_
  refine hw_init e (fun h' e' ha => ?_) (fun h' a e' => ?_)
  · exact ⟨_, b, hst, e', hrel_nomem ha (frees_directives (ver := none) (x := []) ⟨rfl, rfl⟩ (.inl ⟨rfl, rfl, rfl⟩))⟩
  · obtain ⟨b0, g1, g2, g3⟩ := hst
    refine ⟨St (AtLeast ([] : List TagDir).length) none ([] ++ [(a, stkObj ([] : List (Ptr × Ptr)) 16)]), _, ⟨b0, g1, ⟨(fun x hx => by cases hx), Nat.zero_le _⟩, g3.cons _⟩,
      e', ?_⟩
    simp only [Bool.not_true, Bool.false_eq_true, if_false]
    refine hrel_bind (hrel_directivesLoop hS fuel (ver := none) ⟨rfl, rfl⟩ (ds := []) ⟨a, 16, [], [], rfl, .inr (by decide), ⟨rfl, rfl⟩, rfl⟩ fun _ => ⟨rfl, fun d hd => by cases hd⟩) fun r' r => ?_
    refine hrel_ex fun ver => hrel_ex fun ds => hrel_ex fun x => hrel_ex fun y => hrel_and fun hv => hrel_and fun hd => hrel_and fun ⟨hr, hk⟩ => ?_
    subst hr
    have hF := frees_directives hv (.inr hd)
    refine hrel_peekF hS hF fun ht t w hw => ?_
    obtain ⟨T, _, _, _, ht1, _⟩ := hw
    simp only [ht1]
    refine hrel_appendB default_dirs.1 hF rfl rfl ?_
    refine hrel_appendB default_dirs.2 hF (by decide) (by decide) ?_
    rw [if_pos trivial]
    have htop := dirStk_length hd
    by_cases h0 : ds = []
    · subst h0
      rw [if_pos (by simpa using htop)]
      obtain ⟨a', n', vs, z, h3, h4, h5, h6⟩ := hd
      obtain ⟨rfl, rfl⟩ := h5
      rw [h3]
      refine hrel_freeB (l' := y) (L := x) (fun A base bs bs' h Q e hp hQ => ?_) (by blocks) ?_
      · rw [h6] at hp
        exact hw_free e hp hQ
      · refine hrel_pure fun p s b ⟨b1, g1, g2, g3⟩ => ⟨ver, [], x, [], ⟨hv, .inl ⟨rfl, rfl, rfl⟩, rfl, fun _ => ⟨rfl, fun d hd => by cases hd⟩⟩, b1, g1, ⟨(fun x hx => by cases hx), trivial⟩, ?_⟩
        rw [List.append_nil]; exact g3
    · rw [if_neg (by
        rw [htop]
        exact fun hx => h0 (List.length_eq_zero_iff.mp hx))]
      exact hrel_pure fun p s b ⟨b1, g1, g2, g3⟩ => ⟨ver, ds, x, y, ⟨hv, .inr ⟨h0, hd⟩, rfl, hk⟩, b1, g1, ⟨(fun x hx => by cases hx), trivial⟩, g3⟩

theorem tok_starts {t : Token} {ht : HToken} {x : Blocks} (h : TokenAt t ht x) : ht.data.startsDocument = t.data.startsDocument := by
  obtain ⟨T, h1, _, h2, _⟩ := h
  rw [h1]
  cases T with
  | tagDirective T => obtain ⟨p, q, _, _, h2, _⟩ := h2; rw [h2]; rfl
  | «alias» T => obtain ⟨p, h2, _⟩ := h2; rw [h2]; rfl
  | anchor T => obtain ⟨p, h2, _⟩ := h2; rw [h2]; rfl
  | tag T U => obtain ⟨p, q, _, _, h2, _⟩ := h2; rw [h2]; rfl
  | scalar T U => obtain ⟨p, h2, _⟩ := h2; rw [h2]; rfl
  | _ => rw [h2.1]; rfl

/-- Without directives only the default ones are added. -/
theorem hrel_processNone {H : HSrc ρ} {S : TokSrc σ} (fuel : Nat) {ht : HToken} {t : Token} {w : Blocks} (ht0 : TokenAt t ht w)
    (hn : t.data.startsDocument = false) : HRel A base (St AnyDirs (some (ht, t)) []) (hProcessDirectives H fuel false) (processDirectives (cutSrc S) fuel)
    (fun _ _ p s b => St AnyDirs none [] p s b) := by
  cases fuel with
  | zero => exact fun p s b fr h hp e hu hf => absurd (by unfold processDirectives; rw [pm_bind]; rfl) hf
  | succ fuel =>
    unfold hProcessDirectives processDirectives
    refine hrel_lift fun p s b fr h hst e => ?_
    refine hw_init e (fun h' e' ha => ?_) (fun h' a e' => ?_)
    · exact ⟨_, b, hst, e', hrel_nomem ha (frees_directives (ver := none) (x := []) ⟨rfl, rfl⟩ (.inl ⟨rfl, rfl, rfl⟩))⟩
    · obtain ⟨b0, g1, g2, g3⟩ := hst
      refine ⟨St AnyDirs (some (ht, t)) [(a, stkObj ([] : List (Ptr × Ptr)) 16)], _, ⟨b0, g1, ⟨g2.1, trivial⟩, g3.cons _⟩, e', ?_⟩
      simp only [Bool.not_true, Bool.false_eq_true, if_false]
      have hd : DirStk [] ⟨some a, 0⟩ [(a, stkObj ([] : List (Ptr × Ptr)) 16)] := ⟨a, 16, [], [], rfl, .inr (by decide), ⟨rfl, rfl⟩, rfl⟩
      have hF : Frees (freeDirectives none ⟨some a, 0⟩) [(a, stkObj ([] : List (Ptr × Ptr)) 16)] :=
        frees_directives (ver := none) (v := none) (x := []) ⟨rfl, rfl⟩ (.inr hd)
      refine hrel_bind (R := fun r' r p s b => (r' = (none, ⟨some a, 0⟩)) ∧ St AnyDirs (some (ht, t)) [(a, stkObj ([] : List (Ptr × Ptr)) 16)] p s b) ?_ fun r' r =>
        hrel_and fun hr => ?_
      · unfold hDirectivesLoop directivesLoop
        refine hrel_peekC ?_
        obtain ⟨T, h1, _, h2, _⟩ := ht0
        have done : ∀ r, HRel A base (St AnyDirs (some (ht, t)) [(a, stkObj ([] : List (Ptr × Ptr)) 16)]) (pure ((none : Ptr), (⟨some a, 0⟩ : HStk)))
          (pure r : PM σ (Option Version × List TagDir)) (fun r' r (p : HPS ρ) (s : PS σ) b => (r' = (none, ⟨some a, 0⟩)) ∧ St AnyDirs (some (ht, t)) [(a, stkObj ([] : List (Ptr × Ptr)) 16)] p s b) :=
          fun r => hrel_pure fun p s b hst => ⟨rfl, hst⟩
        rw [h1] at hn
        cases T with
        | versionDirective v => cases hn
        | tagDirective T => cases hn
        | «alias» T => obtain ⟨p, h2, _⟩ := h2; simp only [h1, h2, cutTok]; exact done _
        | anchor T => obtain ⟨p, h2, _⟩ := h2; simp only [h1, h2, cutTok]; exact done _
        | tag T U => obtain ⟨p, q, _, _, h2, _⟩ := h2; simp only [h1, h2, cutTok]; exact done _
        | scalar T U => obtain ⟨p, h2, _⟩ := h2; simp only [h1, h2, cutTok]; exact done _
        | _ => simp only [h1, h2.1, cutTok]; exact done _
      · subst hr
        refine hrel_peekC ?_
        obtain ⟨T, _, _, _, ht1, _⟩ := ht0
        simp only [ht1]
        refine hrel_appendB default_dirs.1 hF rfl rfl ?_
        refine hrel_appendB default_dirs.2 hF (by decide) (by decide) ?_
        refine hrel_freeB (l' := [(a, stkObj ([] : List (Ptr × Ptr)) 16)]) (L := []) (fun A base bs bs' h Q e hp hQ => hw_free e hp hQ) (List.Perm.refl _) ?_
        refine hrel_freeB (l' := []) (L := []) (fun A base bs bs' h Q e hp hQ => hw_free_null (hQ h (e.perm hp))) (List.Perm.refl _) ?_
        exact hrel_pure fun p s b ⟨b1, g1, g2, g3⟩ => ⟨b1, g1, ⟨(fun x hx => by cases hx), trivial⟩, g3⟩

/-! ### Events -/

/-- An event of the heap parser, one of the value parser, and the blocks of the former; the event in the heap may have more behind a NUL. -/
def EvAt (he : HPEvent) (ev : Event) (x : Blocks) : Prop :=
  ∃ E, EventAt E he.data x ∧ ev.data = cutEvent E ∧ he.start = ev.start ∧ he.stop = ev.stop

/-- If all tokens are clean, nothing is behind a NUL. -/
def EvGood (he : HPEvent) (ev : Event) (x : Blocks) : Prop := EvAt he ev x ∧ (Strict.strict → EventAt ev.data he.data x ∧ Stringy ev.data ∧ Legible ev.data)

def EvPost (he : HPEvent) (ev : Event) (p : HPS ρ) (s : PS σ) (b : Blocks) : Prop := ∃ x, EvGood he ev x ∧ St AnyDirs none x p s b

theorem hrel_ret {he : HPEvent} {ev : Event} (h : EvGood he ev l) : HRel A base (St AnyDirs c l) (pure he) (pure ev) (EvPost (ρ := ρ) (σ := σ)) :=
  hrel_pure fun p s b ⟨b1, g1, g2, g3⟩ => ⟨l, h, b1, g1, ⟨(fun x hx => by cases hx), trivial⟩, g3⟩

theorem frees_nothing : Frees (pure ()) [] := fun _ _ _ _ h _ e hp hQ => hQ h (e.perm hp)

theorem hfail_stop {e : Fail} : (hfail e : HP ρ α) = hstop e (pure ()) := by
  funext p h
  rfl

theorem hrel_empty {mark : Mark} : HRel A base (St AnyDirs c []) (hEmptyScalar mark) (emptyScalar mark) (EvPost (ρ := ρ) (σ := σ)) := by
  unfold hEmptyScalar emptyScalar
  refine hrel_mallocB (fun ha => ?_) (fun a => ?_)
  · rw [if_pos (by rfl), hfail_stop]
    exact hrel_nomem ha frees_nothing
  · rw [if_neg (by simp)]
    have hx : EventAt (.scalar none none [] true false .plain) (.scalar none none (some a) 0 true false .plain) [(a, .bytes [0])] :=
      ⟨none, none, some a, [], [], [(a, .bytes [0])], rfl, ⟨rfl, rfl⟩, ⟨rfl, rfl⟩, ⟨a, [], rfl, rfl⟩, rfl⟩
    exact hrel_ret ⟨⟨_, hx, rfl, rfl, rfl⟩, fun _ => ⟨hx, ⟨(fun x hx => by cases hx), (fun x hx => by cases hx)⟩, (fun x hx => by cases hx), (fun x hx => by cases hx), fun x hx => by cases hx⟩⟩

theorem evAt_plain {d : HEvent} {E : EvData} {m n : Mark} (h : EventAt E d []) (hc : cutEvent E = E) (hs : Stringy E) (hl : Legible E) :
    EvGood ⟨d, m, n⟩ ⟨E, m, n⟩ [] :=
  ⟨⟨E, h, hc.symm, rfl, rfl⟩, fun _ => ⟨h, hs, hl⟩⟩

theorem hrel_streamStart {H : HSrc ρ} {S : TokSrc σ} (hS : Link H S) : HRel A base (St AnyDirs none []) (hParseStreamStart H) (parseStreamStart (cutSrc S)) EvPost := by
  unfold hParseStreamStart parseStreamStart
  refine hrel_peekB hS fun ht t x hx => ?_
  obtain ⟨T, h1, h2, h3, h4, h5⟩ := hx
  cases T with
  | streamStart enc =>
    have hpl : t.data.isPlain = true := by rw [h1]; rfl
    simp only [h1, cutTok, h3.1, h4]
    exact hrel_setB (hrel_skipP hpl (hrel_ret (evAt_plain ⟨rfl, rfl⟩ rfl trivial trivial)))
  | scalar w st => obtain ⟨p, h6, _⟩ := h3; simp only [h1, cutTok, h6, h4]; exact hrel_fail
  | tag w st => obtain ⟨p, q, _, _, h6, _⟩ := h3; simp only [h1, cutTok, h6, h4]; exact hrel_fail
  | tagDirective w => obtain ⟨p, q, _, _, h6, _⟩ := h3; simp only [h1, cutTok, h6, h4]; exact hrel_fail
  | anchor w => obtain ⟨p, h6, _⟩ := h3; simp only [h1, cutTok, h6, h4]; exact hrel_fail
  | «alias» w => obtain ⟨p, h6, _⟩ := h3; simp only [h1, cutTok, h6, h4]; exact hrel_fail
  | _ => simp only [h1, cutTok, h3.1, h4]; exact hrel_fail

theorem hrel_skipEnds {H : HSrc ρ} {S : TokSrc σ} (hS : Link H S) : ∀ (fuel : Nat) {c : Option (HToken × Token)},
    HRel A base (St AnyDirs c []) (hSkipDocumentEnds H fuel) (skipDocumentEnds (cutSrc S) fuel) (fun _ _ p s b => St AnyDirs none [] p s b)
  | 0, c => fun p s b fr h hp e hu hf => absurd rfl hf
  | fuel + 1, c => by
    unfold hSkipDocumentEnds skipDocumentEnds
    refine hrel_peekB hS fun ht t x hx => ?_
    have done : HRel A base (St AnyDirs (some (ht, t)) []) (pure ()) (pure ()) (fun _ _ (p : HPS ρ) (s : PS σ) b => St AnyDirs none [] p s b) :=
      hrel_pure fun p s b ⟨b1, g1, g2, g3⟩ => ⟨b1, g1, ⟨(fun x hx => by cases hx), trivial⟩, g3⟩
    have hpl := tok_plain (d := .documentEnd) hx rfl
    by_cases hd : t.data = .documentEnd
    · rw [if_pos (hpl.mpr hd), hd]
      exact hrel_skipP (by rw [hd]; rfl) (hrel_skipEnds hS fuel)
    · rw [if_neg (fun h => hd (hpl.mp h))]
      split
      · rename_i h; exact absurd h hd
      · exact done

theorem hrel_documentStart {H : HSrc ρ} {S : TokSrc σ} (hS : Link H S) (fuel : Nat) (implicit : Bool) : HRel A base (St AnyDirs c []) (hDocumentStart H fuel implicit)
    (do
      let token ← peek (cutSrc S)
      if implicit && !token.data.startsDocument then
        let _ ← processDirectives (cutSrc S) fuel
        pushState .documentEnd
        setState .blockNode
        pure { data := .documentStart none [] true, start := token.start, stop := token.start }
      else if token.data ≠ .streamEnd then
        let start := token.start
        let (version, tags) ← processDirectives (cutSrc S) fuel
        let token ← peek (cutSrc S)
        if token.data = .documentStart then
          pushState .documentEnd
          setState .documentContent
          skipTok
          pure { data := .documentStart version tags false, start := start, stop := token.stop }
        else perr "did not find expected <document start>" token.start
      else
        setState .done
        skipTok
        pure { data := .streamEnd, start := token.start, stop := token.stop }) EvPost := by
  unfold hDocumentStart
  refine hrel_peekB hS fun ht t x hx => ?_
  have h4 : ht.start = t.start := by obtain ⟨T, h1, h2, h3, h4, h5⟩ := hx; exact h4
  have h5 : ht.stop = t.stop := by obtain ⟨T, h1, h2, h3, h4, h5⟩ := hx; exact h5
  refine hrel_ite (by rw [tok_starts hx]) (fun h => ?_) (fun h => hrel_ite (by rw [ne_eq, ne_eq, tok_plain hx rfl]) (fun h => ?_) (fun h => ?_))
  · unfold hImplicitDocument
    rw [h4]
    have hns : t.data.startsDocument = false := by simp at h; exact h.2
    refine hrel_bind (hrel_processNone fuel hx hns) fun _ _ => ?_
    exact hrel_pushB (hrel_setB (hrel_ret ⟨⟨.documentStart none [] true, ⟨none, {}, [], [], rfl, ⟨rfl, rfl⟩, ⟨rfl, rfl⟩, rfl⟩, rfl, rfl, rfl⟩,
      fun _ => ⟨⟨none, {}, [], [], rfl, ⟨rfl, rfl⟩, ⟨rfl, rfl⟩, rfl⟩, trivial, fun d hd => by cases hd⟩⟩))
  · unfold hExplicitDocument
    rw [h4]
    refine hrel_bind (hrel_processKeep hS fuel) fun r' r => ?_
    refine hrel_ex fun ver => hrel_ex fun ds => hrel_ex fun x => hrel_ex fun y => hrel_and fun ⟨hv, hd, hr, hk⟩ => ?_
    subst hr
    have hF := frees_directives hv hd.loc
    refine hrel_peekF hS hF fun ht2 t2 w hw => ?_
    have h4 : ht2.start = t2.start := by obtain ⟨T, h1, h2, h3, h4, h5⟩ := hw; exact h4
    have h5 : ht2.stop = t2.stop := by obtain ⟨T, h1, h2, h3, h4, h5⟩ := hw; exact h5
    simp only [h4, h5]
    refine hrel_ite (tok_plain hw rfl) (fun hs => ?_) (fun _ => hrel_stop hF)
    refine hrel_pushF hF (hrel_setB (hrel_skipP (by rw [hs]; rfl) (hrel_ret ?_)))
    have hx : EventAt (.documentStart ver ds false) (.documentStart r'.1 r'.2 false) (x ++ y) := ⟨r'.1, r'.2, x, y, rfl, hv, hd.tags, rfl⟩
    exact ⟨⟨_, hx, rfl, rfl, rfl⟩, fun hs => ⟨by rw [(hk hs).1]; exact hx, trivial, fun d hd => (hk hs).2 d (by rw [(hk hs).1] at hd; exact hd)⟩⟩
  · have hd : t.data = .streamEnd := by simpa using h
    simp only [h4, h5]
    exact hrel_setB (hrel_skipP (by rw [hd]; rfl) (hrel_ret (evAt_plain ⟨rfl, rfl⟩ rfl trivial trivial)))

theorem hrel_parseDocumentStart {H : HSrc ρ} {S : TokSrc σ} (hS : Link H S) (fuel : Nat) (implicit : Bool) :
    HRel A base (St AnyDirs none []) (hParseDocumentStart H fuel implicit) (parseDocumentStart (cutSrc S) fuel implicit) EvPost := by
  unfold hParseDocumentStart parseDocumentStart
  cases implicit with
  | false => exact hrel_bind (hrel_skipEnds hS fuel) fun _ _ => hrel_documentStart hS fuel false
  | true => exact hrel_documentStart hS fuel true

/-! ### The end of a document -/

theorem hw_clearDirs {bs bs' : Blocks} {h : Heap} {ds : List TagDir} {s : HStk} {x : Blocks} {Q : HStk → Heap → Prop} (hs : DirStk ds s x)
    (e : Ext A base bs h) (hp : bs.Perm (x ++ bs')) (hQ : ∀ h' s' x', DirStk [] s' x' → Ext A base (x' ++ bs') h' → Q s' h') :
    hw (hClearDirs s.top s) Q h := by
  obtain ⟨a, n, vs, b, rfl, hv, hd, rfl⟩ := hs
  simp only
  generalize ds.map dirText = D at hd
  clear ds
  generalize hk : vs.length = k
  induction k generalizing vs n b bs h D with
  | zero =>
    have : vs = [] := List.length_eq_zero_iff.mp hk
    subst this
    have hb : b = [] := by
      cases D with
      | nil => exact hd.2
      | cons d D => obtain ⟨p, q, vs', _, _, _, h1, _⟩ := hd; cases h1
    subst hb
    exact hQ h _ [(a, stkObj [] n)] ⟨a, n, [], [], rfl, hv, ⟨rfl, rfl⟩, rfl⟩ (e.perm hp)
  | succ k ih =>
    have hne : vs ≠ [] := by rintro rfl; cases hk
    obtain ⟨ws, v, rfl⟩ : ∃ ws v, vs = ws ++ [v] := ⟨vs.dropLast, vs.getLast hne, (List.dropLast_append_getLast hne).symm⟩
    obtain ⟨D', d, y, z, b', k1, k2, ⟨d', k3⟩, k4⟩ := dirsAt_pop hd
    have hl : ws.length = k := by simpa using hk
    subst hl
    unfold hClearDirs
    rw [hw_bind]
    refine hw_pop (bs' := b ++ bs') e hp fun h1 e1 => ?_
    rw [hw_bind]
    refine hw_free_str (bs' := ((a, stkObj ws (n + 1)) :: (z ++ (b' ++ bs')))) e1 k2 (by blocks_by k4) fun h2 e2 => ?_
    rw [hw_bind]
    refine hw_free_str (bs' := ((a, stkObj ws (n + 1)) :: (b' ++ bs'))) e2 k3 (by blocks) fun h3 e3 => ?_
    refine ih e3 (n + 1) ws _ (.inr (by simp)) (List.Perm.refl _) _ k1 rfl

theorem hrel_clearB {k' : Unit → HP ρ β'} {k : Unit → PM σ β} (h : HRel A base (St AnyDirs c []) (k' ()) (k ()) Q) :
    HRel A base (St AnyDirs c []) (hClearTags >>= k') (setTags [] >>= k) Q := by
  refine hrel_bind (R := fun _ _ => St AnyDirs c []) ?_ (fun _ _ => h)
  intro p s b fr h hp e hu hf
  obtain ⟨b0, ho, hc, hb⟩ := hp
  have hb : b.Perm b0 := hb
  obtain ⟨x1, x2, x3, x4, x5, k1, k2, k3, k4, k5, k6, k8, k9, k10⟩ := ho
  have hb2 := hb.trans k10
  unfold hClearTags
  rw [hw_bind]
  refine hw_clearDirs (bs' := (x1 ++ (x2 ++ (x4 ++ x5))) ++ fr) k3 e (by blocks_by hb2) fun h' s' x' j1 e' => ?_
  exact ⟨(), _, x1 ++ (x2 ++ (x' ++ (x4 ++ x5))), rfl, ⟨_, ⟨x1, x2, x', x4, x5, k1, k2, j1, k4, k5, (fun d hd => by cases hd), k8, k9, List.Perm.refl _⟩, hc,
    List.Perm.refl _⟩, e'.perm (by blocks)⟩

theorem hrel_parseDocumentEnd {H : HSrc ρ} {S : TokSrc σ} (hS : Link H S) : HRel A base (St AnyDirs none []) (hParseDocumentEnd H) (parseDocumentEnd (cutSrc S)) EvPost := by
  unfold hParseDocumentEnd parseDocumentEnd
  refine hrel_peekB hS fun ht t x hx => ?_
  have h4 : ht.start = t.start := by obtain ⟨T, h1, h2, h3, h4, h5⟩ := hx; exact h4
  have h5 : ht.stop = t.stop := by obtain ⟨T, h1, h2, h3, h4, h5⟩ := hx; exact h5
  simp only [h4, h5]
  refine hrel_ite (tok_plain hx rfl) (fun hs => ?_) (fun _ => ?_)
  · exact hrel_skipP (by rw [hs]; rfl) (hrel_clearB (hrel_setB (hrel_ret (evAt_plain ⟨rfl, rfl⟩ rfl trivial trivial))))
  · exact hrel_clearB (hrel_setB (hrel_ret (evAt_plain ⟨rfl, rfl⟩ rfl trivial trivial)))

end

end LibYaml
