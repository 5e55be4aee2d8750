import Verif.Model.LoadParse
import Verif.Proofs.LoaderHeap
import Verif.Proofs.ParserHeapRun

/-!
# The loader and the parser on one heap: helper lemmas
-/

namespace LibYaml

open Spec

set_option linter.unusedSectionVars false

variable {ρ σ : Type} [SrcMem ρ] [SrcLink ρ σ] [Strict] {A : Prop} {base : Nat → Option Obj} {bs : Blocks} {h : Heap}

/-- A stack of the loader, of at most `N` elements, or of the parser is at its limit. -/
def AtLimit (N : Nat) (p : HPS ρ) : Prop := stackLimit HNode N ∨ Full p

theorem AtLimit.mono {N M : Nat} {p : HPS ρ} (h : AtLimit N p) (hm : N ≤ M) : AtLimit M p := h.imp_left fun k => limit_mono k hm (Nat.le_refl _)

/-- The events are those of the parser on values as they are. -/
theorem hw_parseCall' {H : HSrc ρ} {S : TokSrc σ} (hS : Link H S) (hstrict : Strict.strict) {maxLevel : Int} {fuel : Nat} {p : HPar ρ} {q : Parser σ} {b : Blocks}
    {Q : HOut × HPar ρ → Heap → Prop} (hb : Both p q b) (e : Ext A base (b ++ bs) h) (hu : parse (cutSrc S) maxLevel fuel q ≠ .error .ub)
    (hf : parse (cutSrc S) maxLevel fuel q ≠ .error .fuel)
    (h0 : ∀ h' p' b', Left p'.st b' → Ext A base (b' ++ bs) h' → (A → Full p'.st ∨ ∃ q', parse (cutSrc S) maxLevel fuel q = .ok (.failed, q')) →
      Q (.failed, p') h')
    (h1 : ∀ h' p' q' b', parse (cutSrc S) maxLevel fuel q = .ok (.noEvent, q') → Both p' q' b' → Ext A base (b' ++ bs) h' → Q (.noEvent, p') h')
    (h2 : ∀ h' he ev p' q' b' x, parse (cutSrc S) maxLevel fuel q = .ok (.event ev, q') → Both p' q' b' → EventAt ev.data he.data x → Stringy ev.data ∧ Legible ev.data →
      Ext A base (x ++ (b' ++ bs)) h' → Q (.event he, p') h') : hw (hParseCall H maxLevel fuel p) Q h := by
  refine hw_mono (hw_parseCall hS hb e hu hf) fun r h' hr => ?_
  obtain ⟨o, p'⟩ := r
  cases o with
  | event he =>
    obtain ⟨ev, q', x, b', k1, k2, k3, k4⟩ := hr
    exact h2 h' he ev p' q' b' x k1 k3 (k2.2 hstrict).1 (k2.2 hstrict).2 k4
  | noEvent =>
    obtain ⟨q', b', k1, k2, k3⟩ := hr
    exact h1 h' p' q' b' k1 k2 k3
  | failed =>
    obtain ⟨⟨b', k1, k2⟩, _, k3⟩ := hr
    refine h0 h' p' b' k1 k2 fun a => ?_
    rcases k3 with ⟨q', k4, _⟩ | ⟨_, k4⟩
    · exact .inr ⟨q', k4⟩
    · exact .inl (k4 a)

/-- The strings of the nodes are C strings, and their values have characters only. -/
def LegNodes (nds : List Node) : Prop := ∀ nd ∈ nds, CText nd.tag ∧ ∀ v st, nd.data = .scalar v st → ∀ c ∈ v, c < 0x200000

/-- What is known about a document that was loaded with at most `k` events. -/
def LoadedOk (k : Nat) (d : Doc) : Prop := LegibleDoc d ∧ d.nodes.length ≤ k

omit [SrcMem ρ] [SrcLink ρ σ] [Strict] in
theorem loadedOk_empty (k : Nat) : LoadedOk k Doc.empty := ⟨⟨nofun, nofun, nofun⟩, Nat.zero_le _⟩

omit [SrcMem ρ] [SrcLink ρ σ] [Strict] in
theorem tagOr_legible {d : Text} (hd : CText d) {t : Option Text} (ht : ∀ x ∈ t, CText x) : CText (tagOr d t) := by
  unfold tagOr
  split
  · exact hd
  · split
    · exact hd
    · exact ht _ rfl

omit [SrcMem ρ] [SrcLink ρ σ] [Strict] in
theorem nodeAdd_legible {index : Nat} {s s' : CState} (h : nodeAdd roomy index s = .ok s') (hs : LegNodes s.nodes) :
    LegNodes s'.nodes ∧ s'.nodes.length = s.nodes.length := by
  unfold nodeAdd at h
  split at h
  · cases h; exact ⟨hs, rfl⟩
  · split at h
    · cases h
    · rename_i parent hg
      split at h
      · rename_i p' hp
        cases h
        refine ⟨fun nd hnd => ?_, by simp⟩
        rcases List.mem_or_eq_of_mem_set hnd with hnd | rfl
        · exact hs nd hnd
        · have hpar := hs parent (List.mem_of_getElem? hg)
          unfold addChild at hp
          split at hp
          · split at hp
            · cases hp; exact ⟨hpar.1, nofun⟩
            · cases hp
          · split at hp
            · cases hp; exact ⟨hpar.1, nofun⟩
            · cases hp
          · cases hp
      · cases h

omit [SrcMem ρ] [SrcLink ρ σ] [Strict] in
theorem addNode_legible {nd : Node} {a : Option Text} {o : Bool} {s s' : CState} (h : addNode roomy nd a o s = .ok s') (hs : LegNodes s.nodes)
    (hnd : CText nd.tag ∧ ∀ v st, nd.data = .scalar v st → ∀ c ∈ v, c < 0x200000) : LegNodes s'.nodes ∧ s'.nodes.length ≤ s.nodes.length + 1 := by
  unfold addNode at h
  split at h
  · simp only at h
    split at h
    · cases h
    · split at h
      · cases h
      · rename_i s1 h1
        obtain ⟨k1, k2⟩ := nodeAdd_legible h1 (fun x hx => by
          rcases List.mem_append.mp hx with hx | hx
          · exact hs x hx
          · rw [List.mem_singleton.mp hx]; exact hnd)
        simp only [List.length_append, List.length_singleton] at k2
        split at h
        · split at h
          · cases h; exact ⟨k1, by dsimp only; omega⟩
          · cases h
        · cases h; exact ⟨k1, by omega⟩
  · cases h

omit [SrcMem ρ] [SrcLink ρ σ] [Strict] in
theorem composeEvent_legible {ev : Event} {s s' : CState} (h : composeEvent roomy ev s = .ok s') (he : Legible ev.data) (hs : LegNodes s.nodes) :
    LegNodes s'.nodes ∧ s'.nodes.length ≤ s.nodes.length + 1 := by
  have close : ∀ {isKind stop}, closeNode isKind stop s = .ok s' → LegNodes s'.nodes ∧ s'.nodes.length ≤ s.nodes.length + 1 := by
    intro isKind stop hr
    unfold closeNode at hr
    split at hr
    · cases hr
    · split at hr
      · cases hr
      · rename_i nd hg
        split at hr
        · cases hr
          refine ⟨fun x hx => ?_, by simp⟩
          rcases List.mem_or_eq_of_mem_set hx with hx | rfl
          · exact hs x hx
          · exact hs nd (List.mem_of_getElem? hg)
        · cases hr
  obtain ⟨data, start, stop⟩ := ev
  cases data with
  | streamStart en => cases h
  | streamEnd => cases h
  | documentStart v ts i => cases h
  | documentEnd i => cases h
  | «alias» a =>
    replace h : loadAlias roomy a start s = .ok s' := h
    unfold loadAlias at h
    split at h
    · obtain ⟨k1, k2⟩ := nodeAdd_legible h hs
      exact ⟨k1, by omega⟩
    · cases h
  | scalar a t v pi qi st =>
    exact addNode_legible (nd := { tag := tagOr strTag t, data := .scalar v st, start, stop }) h hs
      ⟨tagOr_legible (by unfold CText; decide) he.2.1, by rintro _ _ ⟨⟩; exact he.2.2⟩
  | sequenceStart a t i st =>
    exact addNode_legible (nd := { tag := tagOr seqTag t, data := .sequence [] st, start, stop }) h hs ⟨tagOr_legible (by unfold CText; decide) he.2, nofun⟩
  | mappingStart a t i st =>
    exact addNode_legible (nd := { tag := tagOr mapTag t, data := .mapping [] st, start, stop }) h hs ⟨tagOr_legible (by unfold CText; decide) he.2, nofun⟩
  | sequenceEnd => exact close h
  | mappingEnd => exact close h

theorem hw_lLoadNodes {H : HSrc ρ} {S : TokSrc σ} (hS : Link H S) (hstrict : Strict.strict) {maxLevel : Int} {fuel k : Nat} {s : CState} {d : Doc} {hs : HLoad} {b pb : Blocks}
    {p : HPar ρ} {q q' : Parser σ} {o : NOut} {N : Nat} {Q : Bool × HLoad × HPar ρ → Heap → Prop} (e : Ext A base (b ++ (pb ++ bs)) h) (ha : LoadAt s d hs b)
    (hb : Both p q pb) (hN : Sized s N) (hL : LegNodes s.nodes) (hv : loadNodes roomy (cutSrc S) maxLevel fuel k s q = .ok (o, q'))
    (h0 : ∀ h' s' hs' b' leak p' pb', LoadAt s' d hs' b' → Left p'.st pb' → Ext A base (b' ++ (leak ++ (pb' ++ bs))) h' → Lost leak →
      (A → AtLimit (N + 2 * k) p'.st ∨ (leak = [] ∧ o = .failed)) → Q (false, hs', p') h')
    (h1 : ∀ h' s' hs' b' i m p' pb', o = .done s' i m → LoadAt s' { d with endImplicit := i } hs' b' → LegNodes s'.nodes ∧ s'.nodes.length ≤ s.nodes.length + k → Both p' q' pb' →
      Ext A base (b' ++ (pb' ++ bs)) h' → Q (true, hs', p') h') : hw (lLoadNodes H maxLevel fuel k hs p) Q h := by
  induction k generalizing s hs b pb p q N h with
  | zero => cases hv
  | succ k ih =>
    unfold lLoadNodes
    unfold loadNodes at hv
    rw [hw_bind]
    refine hw_parseCall' (bs := b ++ bs) hS hstrict hb (e.perm (by blocks)) (fun hx => by rw [hx] at hv; cases hv) (fun hx => by rw [hx] at hv; cases hv)
      (fun h' p' pb' k1 k2 k3 => ?_) (fun h' p' q1 pb' k1 k2 k3 => ?_) (fun g he ev p' q1 pb' x k1 k2 hev k4 k5 => ?_)
    · simp only
      refine h0 h' s hs b [] p' pb' ha k1 (k2.perm (by blocks)) (.inl rfl) fun a => ?_
      rcases k3 a with hl | ⟨q1, hq⟩
      · exact .inl (.inr hl)
      · rw [hq] at hv
        cases hv
        exact .inr ⟨rfl, rfl⟩
    · rw [k1] at hv
      cases hv
    · rw [k1] at hv
      simp only at hv ⊢
      have go : (∀ i, ev.data ≠ .documentEnd i) → hw (do
          let (ok, s) ← hComposeEvent he.data hs
          if !ok then return (false, s, { p' with error := some .memory }) else lLoadNodes H maxLevel fuel k s p') Q g := by
        intro hne
        have hv' : (match composeEvent roomy ev s with
            | .ok s => loadNodes roomy (cutSrc S) maxLevel fuel k s q1
            | .error .ub => .error .ub
            | .error err => .ok (.failed, { q1 with error := some err })) = .ok (o, q') := by
          revert hv
          cases hd : ev.data <;> first | (exact absurd hd (hne _)) | (exact id)
        rw [hw_bind]
        refine hw_composeEvent (bs := pb' ++ bs) (b := b) (k5.perm (by blocks)) ha hN hev k4.1 (fun hub => ?_) (fun g s' hs' b' leak j1 j2 j3 j4 => ?_)
          (fun g s' hs' b' j1 j2 j3 => ?_)
        · rw [hub] at hv'
          cases hv'
        · dsimp only
          rw [if_pos (by rfl)]
          refine h0 g s' hs' b' leak _ pb' j1 k2.own.left j2 j3 fun a => ?_
          rcases j4 a with hl | ⟨rfl, err, herr⟩
          · exact .inl (.inl (limit_mono hl (by omega) (Nat.le_refl _)))
          · refine .inr ⟨rfl, ?_⟩
            rw [herr] at hv'
            cases err <;> cases hv' <;> rfl
        · dsimp only
          rw [if_neg (by simp)]
          rw [j1] at hv'
          refine ih (N := N + 2) j3 j2 k2 (hN.event j1) (composeEvent_legible j1 k4.2 hL).1 hv' (fun g s' hs' b' leak p2 pb2 m1 m2 m3 m4 m5 => ?_) (fun g s2 hs' b' i m p2 pb2 m1 m2 m3 m4 m5 => ?_)
          · exact h0 g s' hs' b' leak p2 pb2 m1 m2 m3 m4 fun a => (m5 a).imp_left fun k => k.mono (by omega)
          · have := (composeEvent_legible j1 k4.2 hL).2
            exact h1 g s2 hs' b' i m p2 pb2 m1 m2 ⟨m3.1, by omega⟩ m4 m5
      obtain ⟨he, hm1, hm2⟩ := he
      obtain ⟨data, start, stop⟩ := ev
      cases data with
      | documentEnd i =>
        obtain ⟨rfl, rfl⟩ := hev
        cases hv
        exact h1 g s _ b i stop p' pb' rfl (loadAt_end ha) ⟨hL, by omega⟩ k2 (k5.perm (by blocks))
      | streamStart n =>
        obtain ⟨rfl, rfl⟩ := hev
        exact go (fun i hh => by cases hh)
      | streamEnd =>
        obtain ⟨rfl, rfl⟩ := hev
        exact go (fun i hh => by cases hh)
      | documentStart v ts i =>
        obtain ⟨p, q, x, y, rfl, _⟩ := hev
        exact go (fun i hh => by cases hh)
      | «alias» a =>
        obtain ⟨p, rfl, _⟩ := hev
        exact go (fun i hh => by cases hh)
      | scalar a t v pi qi st =>
        obtain ⟨p, q, r, x, y, z, rfl, _⟩ := hev
        exact go (fun i hh => by cases hh)
      | sequenceStart a t i st =>
        obtain ⟨p, q, x, y, rfl, _⟩ := hev
        exact go (fun i hh => by cases hh)
      | sequenceEnd =>
        obtain ⟨rfl, rfl⟩ := hev
        exact go (fun i hh => by cases hh)
      | mappingStart a t i st =>
        obtain ⟨p, q, x, y, rfl, _⟩ := hev
        exact go (fun i hh => by cases hh)
      | mappingEnd =>
        obtain ⟨rfl, rfl⟩ := hev
        exact go (fun i hh => by cases hh)

theorem hw_lLoadDocument {H : HSrc ρ} {S : TokSrc σ} (hS : Link H S) (hstrict : Strict.strict) {maxLevel : Int} {fuel k : Nat} {ev : Event} {v : Option Version}
    {ts : List TagDir} {i0 : Bool} {he : HEvent} {hs : HLoad} {b x pb : Blocks} {p : HPar ρ} {q q' : Parser σ} {o : LOut}
    {Q : Bool × HLoad × HPar ρ → Heap → Prop} (e : Ext A base (x ++ (b ++ (pb ++ bs))) h) (hd : ev.data = .documentStart v ts i0) (hleg : Legible ev.data) (hx : EventAt ev.data he x)
    (ha : DoneAt {} Doc.empty hs b) (hb : Both p q pb) (hv : loadDocument roomy (cutSrc S) maxLevel fuel k ev q = .ok (o, q'))
    (h0 : ∀ h' s' d hs' b' leak p' pb', DoneAt s' d hs' b' → Left p'.st pb' → Ext A base (b' ++ (leak ++ (pb' ++ bs))) h' → Lost leak →
      (A → AtLimit (2 * k) p'.st ∨ (leak = [] ∧ o = .failed)) → Q (false, hs', p') h')
    (h1 : ∀ h' s' d hs' b' p' pb', o = .doc { d with nodes := s'.nodes } → DoneAt s' d hs' b' → LoadedOk k { d with nodes := s'.nodes } → Both p' q' pb' → Ext A base (b' ++ (pb' ++ bs)) h' →
      Q (true, hs', p') h') : hw (lLoadDocument H maxLevel fuel k he hs p) Q h := by
  unfold loadDocument at hv
  rw [hd] at hv hx hleg
  simp only at hv
  obtain ⟨p1, q1, x, y, rfl, hx, hy, rfl⟩ := hx
  obtain ⟨b1, b2, ⟨a, n, hns, c1, c2, c3, k1, k2, ⟨k3, rfl⟩, k4, k5, k6, k7, rfl⟩, j2, rfl⟩ := ha
  obtain ⟨rfl, rfl⟩ := k2
  obtain ⟨k4, rfl⟩ : hs.doc.tags = {} ∧ c3 = [] := k4
  have hdoc : DocAt { Doc.empty with version := v, tags := ts, startImplicit := i0, nodes := [] } { hs.doc with version := p1, tags := q1, startImplicit := i0 }
      ((a, stkObj ([] : List HNode) n) :: ([] ++ (x ++ y))) := ⟨a, n, [], [], x, y, k1, ⟨rfl, rfl⟩, hx, hy, rfl, k6, k7, rfl⟩
  unfold lLoadDocument
  simp only []
  rw [hw_bind]
  refine hw_init e (fun g e2 hA => ?_) (fun g ca e2 => ?_)
  · dsimp only
    rw [if_pos (by rfl)]
    exact h0 g {} { Doc.empty with version := v, tags := ts, startImplicit := i0 } { hs with doc := { hs.doc with version := p1, tags := q1, startImplicit := i0 } } (((a, stkObj ([] : List HNode) n) :: ([] ++ (x ++ y))) ++ b2) [] _ pb ⟨_, b2, hdoc, j2, rfl⟩ hb.own.left (e2.perm (by blocks))
      (.inl rfl) (fun a => absurd a hA)
  dsimp only
  rw [if_neg (by simp), hw_bind]
  have e3 := e2.perm (bs' := ((a, stkObj ([] : List HNode) n) :: ([] ++ (x ++ y)) ++ (b2 ++ [(ca, stkObj ([] : List Int) 16)])) ++ (pb ++ bs)) (by blocks)
  cases hl : loadNodes roomy (cutSrc S) maxLevel fuel k {} q with
  | error er => rw [hl] at hv; cases hv
  | ok r =>
  obtain ⟨o1, q2⟩ := r
  rw [hl] at hv
  refine hw_lLoadNodes (s := {}) (d := { Doc.empty with version := v, tags := ts, startImplicit := i0 })
    (hs := { hs with doc := { hs.doc with version := p1, tags := q1, startImplicit := i0 }, ctx := ⟨some ca, 0⟩ }) (N := 0) hS hstrict e3
    ⟨_, b2, _, hdoc, j2, ⟨ca, 16, rfl, .inr (by simp), rfl⟩, rfl⟩ hb ⟨Nat.le_refl _, Nat.le_refl _, Nat.le_refl _, fun nd hnd => by cases hnd⟩ nofun hl
    (fun g s' hs' b' leak p' pb' m1 m2 m3 m4 m5 => ?_) (fun g s' hs' b' i mk p' pb' m1 m2 mL m3 m4 => ?_)
  · obtain ⟨d1, d2, d3, i1, i2, ⟨ca, cn, i3, i4, rfl⟩, rfl⟩ := m1
    dsimp only
    rw [i3, hw_bind]
    refine hw_free m3 (o := stkObj (s'.ctx.reverse.map Int.ofNat) cn) (bs' := (d1 ++ d2) ++ (leak ++ (pb' ++ bs))) (by blocks) (fun g e4 => ?_)
    refine h0 g s' _ { hs' with ctx := {} } _ leak p' pb' ⟨d1, d2, i1, i2, rfl⟩ m2 e4 m4 (fun a => ?_)
    rcases m5 a with hh | ⟨hk, rfl⟩
    · rw [Nat.zero_add] at hh
      exact .inl hh
    · cases hv
      exact .inr ⟨hk, rfl⟩
  · obtain ⟨d1, d2, d3, i1, i2, ⟨ca, cn, i3, i4, rfl⟩, rfl⟩ := m2
    subst m1
    cases hv
    dsimp only
    rw [i3, hw_bind]
    refine hw_free m4 (o := stkObj (s'.ctx.reverse.map Int.ofNat) cn) (bs' := (d1 ++ d2) ++ (pb' ++ bs)) (by blocks) (fun g e4 => ?_)
    refine h1 g s' { version := v, tags := ts, startImplicit := i0, endImplicit := i, start := ev.start, stop := mk } { hs' with ctx := {} } _ p' pb' rfl ⟨d1, d2, ?_, i2, rfl⟩
      ⟨⟨hleg, fun nd hnd => (mL.1 nd hnd).1, fun nd hnd => (mL.1 nd hnd).2⟩, by simpa using mL.2⟩ m3 e4
    obtain ⟨a, n, hns, c1, c2, c3, i5⟩ := i1
    exact ⟨a, n, hns, c1, c2, c3, i5⟩

theorem hw_lLoadError {s : CState} {d : Doc} {hs : HLoad} {p : HPar ρ} {b : Blocks} {Q : Bool × HDoc × HLPar ρ → Heap → Prop} (e : Ext A base (b ++ bs) h)
    (ha : DoneAt s d hs b) (hQ : ∀ h', Ext A base bs h' → Q (false, {}, { par := p }) h') : hw (lLoadError hs p) Q h := by
  obtain ⟨b1, b2, k1, k2, rfl⟩ := ha
  unfold lLoadError
  rw [hw_bind]
  refine hw_deleteAliases (bs := b1 ++ bs) (e.perm (by blocks)) k2 (fun g e2 => ?_)
  rw [hw_bind]
  exact hw_documentDelete e2 k1 (fun g e3 => hQ g e3)

theorem hw_lLoadError' {d : Doc} {hd : HDoc} {p : HPar ρ} {b : Blocks} {Q : Bool × HDoc × HLPar ρ → Heap → Prop} (e : Ext A base (b ++ bs) h)
    (ha : DocAt d hd b) (hQ : ∀ h', Ext A base bs h' → Q (false, {}, { par := p }) h') : hw (lLoadError { doc := hd } p) Q h := by
  unfold lLoadError
  rw [hw_bind]
  refine hw_deleteNothing ?_
  rw [hw_bind]
  exact hw_documentDelete e ha (fun g e3 => hQ g e3)

theorem hw_lLoadError_empty {p : HPar ρ} {Q : Bool × HDoc × HLPar ρ → Heap → Prop} (hQ : Q (false, {}, { par := p }) h) :
    hw (lLoadError {} p) Q h := by
  unfold lLoadError
  rw [hw_bind]
  refine hw_deleteNothing ?_
  exact hQ

theorem hw_lLoadRest {H : HSrc ρ} {S : TokSrc σ} (hS : Link H S) (hstrict : Strict.strict) {maxLevel : Int} {fuel k : Nat} {hd : HDoc} {p : HLPar ρ} {q q' : Parser σ}
    {b pb : Blocks} {o : LOut} {Q : Bool × HDoc × HLPar ρ → Heap → Prop} (e : Ext A base (b ++ (pb ++ bs)) h) (ha : DocAt Doc.empty hd b)
    (has : p.aliases = {}) (hb : Both p.par q pb) (hv : loadRest roomy (cutSrc S) maxLevel fuel k q = .ok (o, q'))
    (h0 : ∀ h' leak p' pb', Left p'.st pb' → Ext A base (leak ++ (pb' ++ bs)) h' → Lost leak →
      (A → AtLimit (2 * k) p'.st ∨ (leak = [] ∧ o = .failed)) → Q (false, {}, { par := p' }) h')
    (h1 : ∀ h' d hd b' p' pb', o = .doc d → DocAt d hd b' → LoadedOk k d → Both p' q' pb' → Ext A base (b' ++ (pb' ++ bs)) h' → Q (true, hd, { par := p' }) h') :
    hw (lLoadRest H maxLevel fuel k hd p) Q h := by
  obtain ⟨p, aliases⟩ := p
  have has : aliases = {} := has
  subst has
  have hend : p.st.ended = q.st.ended := by
    obtain ⟨x1, x2, x3, x4, x5, k1, k2, k3, k4, k5, k6, k8, k9, k10⟩ := hb.own
    exact k8
  unfold lLoadRest
  unfold loadRest at hv
  dsimp only
  rw [hw_ite, hend]
  cases he : q.st.ended with
  | true =>
    rw [if_pos he] at hv
    cases hv
    rw [if_pos rfl]
    exact h1 h Doc.empty hd b p pb rfl ha (loadedOk_empty k) hb e
  | false =>
  rw [if_neg (by rw [he]; simp)] at hv
  rw [if_neg (by simp), hw_bind]
  refine hw_parseCall' (bs := b ++ bs) hS hstrict hb (e.perm (by blocks)) (fun hx => by rw [hx] at hv; cases hv) (fun hx => by rw [hx] at hv; cases hv)
    (fun h' p' pb' k1 k2 k3 => ?_) (fun h' p' q1 pb' k1 k2 k3 => ?_) (fun g ev ve p' q1 pb' x k1 k2 hev k4 k5 => ?_)
  · simp only
    refine hw_lLoadError' (bs := pb' ++ bs) (k2.perm (by blocks)) ha fun g e3 => h0 g [] p' pb' k1 e3 (.inl rfl) fun a => ?_
    rcases k3 a with hl | ⟨q1, hq⟩
    · exact .inl (.inr hl)
    · rw [hq] at hv
      cases hv
      exact .inr ⟨rfl, rfl⟩
  · rw [k1] at hv
    cases hv
  · rw [k1] at hv
    simp only at hv ⊢
    have hval : (∃ v ts i, ve.data = .documentStart v ts i) ∨ ve.data = .streamEnd := by
      unfold loadDocument at hv
      revert hv
      cases ve.data <;> intro hv
      case documentStart v ts i => exact .inl ⟨v, ts, i, rfl⟩
      case streamEnd => exact .inr rfl
      all_goals cases hv
    rcases hval with ⟨v, ts, i, hd'⟩ | hs
    · simp only [hd'] at hv
      have hev' := hev
      rw [hd'] at hev
      obtain ⟨he, hm1, hm2⟩ := ev
      obtain ⟨p1, q1', x1, x2, rfl, hx1, hx2, rfl⟩ := hev
      simp only
      rw [hw_bind]
      refine hw_init k5 (fun g e3 hA => ?_) (fun g a e3 => ?_)
      · dsimp only
        rw [if_pos (by rfl)]
        refine hw_lLoadError' (bs := (x1 ++ x2) ++ (pb' ++ bs)) (e3.perm (by blocks)) ha (fun g e4 => ?_)
        exact h0 g (x1 ++ x2) _ pb' k2.own.left e4 (.inr (.inr (.inr ⟨v, _, p1, q1', x1, x2, hx1, hx2, rfl⟩))) (fun a => absurd a hA)
      · dsimp only
        rw [if_neg (by simp), hw_bind]
        refine hw_lLoadDocument (bs := bs) (b := b ++ [(a, stkObj ([] : List (Ptr × Nat)) 16)]) hS hstrict (e3.perm (by blocks)) hd' k4.2 hev'
          ⟨b, _, ha, ⟨a, 16, [], [], rfl, ⟨rfl, rfl⟩, .inr (by simp), rfl⟩, rfl⟩ k2 hv
          (fun g s' d hs' b' leak p2 pb2 m1 m2 m3 m4 m5 => ?_) (fun g s' d hs' b' p2 pb2 m1 m2 mL m3 m4 => ?_)
        · dsimp only
          rw [if_pos (by rfl)]
          exact hw_lLoadError (bs := leak ++ (pb2 ++ bs)) m3 m1 fun g e4 => h0 g leak p2 pb2 m2 e4 m4 m5
        · obtain ⟨d1, d2, j1, j2, rfl⟩ := m2
          dsimp only
          rw [if_neg (by simp), hw_bind]
          refine hw_deleteAliases (bs := d1 ++ (pb2 ++ bs)) (m4.perm (by blocks)) j2 (fun g e4 => ?_)
          rw [hw_pure]
          exact h1 g _ hs'.doc d1 p2 pb2 m1 j1 mL m3 e4
    · simp only [hs] at hv
      cases hv
      rw [hs] at hev
      obtain ⟨he, hm1, hm2⟩ := ev
      obtain ⟨rfl, rfl⟩ := hev
      exact h1 g Doc.empty hd b p' pb' rfl ha (loadedOk_empty k) k2 (k5.perm (by blocks))

theorem hw_lLoad {H : HSrc ρ} {S : TokSrc σ} (hS : Link H S) (hstrict : Strict.strict) {maxLevel : Int} {fuel k : Nat} {p : HLPar ρ} {q q' : Parser σ}
    {pb : Blocks} {o : LOut} {Q : Bool × HDoc × HLPar ρ → Heap → Prop} (e : Ext A base (pb ++ bs) h)
    (has : p.aliases = {}) (hb : Both p.par q pb) (hv : load roomy (cutSrc S) maxLevel fuel k q = .ok (o, q'))
    (h0 : ∀ h' leak p' pb', Left p'.st pb' → Ext A base (leak ++ (pb' ++ bs)) h' → Lost leak →
      (A → AtLimit (2 * k) p'.st ∨ (leak = [] ∧ o = .failed)) → Q (false, {}, { par := p' }) h')
    (h1 : ∀ h' d hd b' p' pb', o = .doc d → DocAt d hd b' → LoadedOk k d → Both p' q' pb' → Ext A base (b' ++ (pb' ++ bs)) h' → Q (true, hd, { par := p' }) h') :
    hw (lLoad H maxLevel fuel k p) Q h := by
  obtain ⟨p, aliases⟩ := p
  have has : aliases = {} := has
  subst has
  have hst : p.st.state = q.st.state := by
    obtain ⟨x1, x2, x3, x4, x5, k1, k2, k3, k4, k5, k6, k8, k9, k10⟩ := hb.own
    exact k9
  unfold lLoad
  unfold load at hv
  rw [hw_bind]
  refine hw_init e (fun g e2 hA => ?_) (fun g a e2 => ?_)
  · dsimp only
    rw [if_pos (by rfl)]
    exact hw_lLoadError_empty (h0 g [] _ pb hb.own.left e2 (.inl rfl) (fun a => absurd a hA))
  dsimp only
  rw [if_neg (by simp)]
  have hdoc : DocAt Doc.empty { nodes := ⟨some a, 0⟩ } [(a, stkObj ([] : List HNode) 16)] :=
    ⟨a, 16, [], [], [], [], rfl, ⟨rfl, rfl⟩, ⟨rfl, rfl⟩, ⟨rfl, rfl⟩, rfl, rfl, .inr (by simp), rfl⟩
  rw [hw_ite, hst]
  by_cases hs : q.st.state = .streamStart
  · rw [if_pos hs] at hv ⊢
    rw [hw_bind]
    refine hw_parseCall' (bs := (a, stkObj ([] : List HNode) 16) :: bs) hS hstrict hb (e2.perm (by blocks)) (fun hx => by rw [hx] at hv; cases hv)
      (fun hx => by rw [hx] at hv; cases hv)
      (fun h' p' pb' k1 k2 k3 => ?_) (fun h' p' q1 pb' k1 k2 k3 => ?_) (fun g ev ve p' q1 pb' x k1 k2 hev k4 k5 => ?_)
    · simp only
      refine hw_lLoadError' (bs := pb' ++ bs) (k2.perm (by blocks)) hdoc fun g e3 => h0 g [] p' pb' k1 e3 (.inl rfl) fun a => ?_
      rcases k3 a with hl | ⟨q1, hq⟩
      · exact .inl (.inr hl)
      · rw [hq] at hv
        cases hv
        exact .inr ⟨rfl, rfl⟩
    · rw [k1] at hv
      cases hv
    · rw [k1] at hv
      simp only at hv ⊢
      have hval : ∃ n, ve.data = .streamStart n := by
        revert hv
        cases ve.data <;> intro hv
        case streamStart n => exact ⟨n, rfl⟩
        all_goals cases hv
      obtain ⟨n, hd⟩ := hval
      simp only [hd] at hv
      rw [hd] at hev
      obtain ⟨he, hm1, hm2⟩ := ev
      obtain ⟨rfl, rfl⟩ := hev
      exact hw_lLoadRest hS hstrict (k5.perm (by blocks)) hdoc rfl k2 hv h0 h1
  · rw [if_neg hs] at hv ⊢
    exact hw_lLoadRest hS hstrict (e2.perm (by blocks)) hdoc rfl hb hv h0 h1

end LibYaml
