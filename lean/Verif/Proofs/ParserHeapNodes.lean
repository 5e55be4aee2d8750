import Verif.Proofs.ParserHeapDocs

/-!
# The parser on the heap: nodes
-/

namespace LibYaml

open Spec

set_option linter.unusedSectionVars false

variable {ρ σ α α' β β' : Type} [SrcMem ρ] [SrcLink ρ σ] [Strict]

theorem tok_alias {t : Token} {ht : HToken} {x : Blocks} {p : Ptr} (h : TokenAt t ht x) (hd : ht.data = .alias p) :
    ∃ a, t.data = .alias (cutText a) ∧ StrAt (some (textBytes a)) p x ∧ (Strict.strict → AnchorText a) := by
  obtain ⟨T, h1, h2, h3, _⟩ := h
  cases T with
  | «alias» T => obtain ⟨p', h4, h5⟩ := h3; rw [hd] at h4; cases h4; exact ⟨T, h1, h5, h2.2⟩
  | anchor T => obtain ⟨p, h3, _⟩ := h3; rw [h3] at hd; cases hd
  | tag T U => obtain ⟨p, q, _, _, h3, _⟩ := h3; rw [h3] at hd; cases hd
  | tagDirective T => obtain ⟨p, q, _, _, h3, _⟩ := h3; rw [h3] at hd; cases hd
  | scalar T U => obtain ⟨p, h3, _⟩ := h3; rw [h3] at hd; cases hd
  | _ => rw [h3.1] at hd; cases hd

theorem tok_anchor {t : Token} {ht : HToken} {x : Blocks} {p : Ptr} (h : TokenAt t ht x) (hd : ht.data = .anchor p) :
    ∃ a, t.data = .anchor (cutText a) ∧ StrAt (some (textBytes a)) p x ∧ (Strict.strict → AnchorText a) := by
  obtain ⟨T, h1, h2, h3, _⟩ := h
  cases T with
  | anchor T => obtain ⟨p', h4, h5⟩ := h3; rw [hd] at h4; cases h4; exact ⟨T, h1, h5, h2.2⟩
  | «alias» T => obtain ⟨p, h3, _⟩ := h3; rw [h3] at hd; cases hd
  | tag T U => obtain ⟨p, q, _, _, h3, _⟩ := h3; rw [h3] at hd; cases hd
  | tagDirective T => obtain ⟨p, q, _, _, h3, _⟩ := h3; rw [h3] at hd; cases hd
  | scalar T U => obtain ⟨p, h3, _⟩ := h3; rw [h3] at hd; cases hd
  | _ => rw [h3.1] at hd; cases hd

theorem tok_scalar {t : Token} {ht : HToken} {x : Blocks} {p : Ptr} {n : Nat} {st : ScalarStyle} (h : TokenAt t ht x) (hd : ht.data = .scalar p n st) :
    ∃ v, t.data = .scalar v st ∧ n = (textBytes v).length ∧ StrAt (some (textBytes v)) p x ∧ (Strict.strict → ∀ c ∈ v, c < 0x110000) := by
  obtain ⟨T, h1, h2, h3, _⟩ := h
  cases T with
  | scalar T U => obtain ⟨p', h4, h5⟩ := h3; rw [hd] at h4; cases h4; exact ⟨T, h1, rfl, h5, h2.2⟩
  | anchor T => obtain ⟨p, h3, _⟩ := h3; rw [h3] at hd; cases hd
  | «alias» T => obtain ⟨p, h3, _⟩ := h3; rw [h3] at hd; cases hd
  | tag T U => obtain ⟨p, q, _, _, h3, _⟩ := h3; rw [h3] at hd; cases hd
  | tagDirective T => obtain ⟨p, q, _, _, h3, _⟩ := h3; rw [h3] at hd; cases hd
  | _ => rw [h3.1] at hd; cases hd

/-- The suffix of a tag, or a tag. -/
def SuffixOk (U : Text) : Prop := (∀ c ∈ U, Storable c) ∧ (Strict.strict → CText U)

theorem tok_tag {t : Token} {ht : HToken} {x : Blocks} {p q : Ptr} (h : TokenAt t ht x) (hd : ht.data = .tag p q) :
    ∃ H U y z, t.data = .tag (cutText H) (cutText U) ∧ AnchorText H ∧ SuffixOk U ∧ StrAt (some (textBytes H)) p y ∧ StrAt (some (textBytes U)) q z ∧
      x = y ++ z := by
  obtain ⟨T, h1, h2, h3, _⟩ := h
  cases T with
  | tag T U => obtain ⟨p', q', y, z, h4, h5, h6, h7⟩ := h3; rw [hd] at h4; cases h4; exact ⟨T, U, y, z, h1, h2.1.1, ⟨h2.1.2, fun hs => (h2.2 hs).2⟩, h5, h6, h7⟩
  | scalar T U => obtain ⟨p, h3, _⟩ := h3; rw [h3] at hd; cases hd
  | anchor T => obtain ⟨p, h3, _⟩ := h3; rw [h3] at hd; cases hd
  | «alias» T => obtain ⟨p, h3, _⟩ := h3; rw [h3] at hd; cases hd
  | tagDirective T => obtain ⟨p, q, _, _, h3, _⟩ := h3; rw [h3] at hd; cases hd
  | _ => rw [h3.1] at hd; cases hd

/-- The tag of a node before it is resolved. -/
def TagPropAt (tag : Option (Text × Text × Mark)) (l : HProps) (b : Blocks) : Prop :=
  match tag with
  | none => l.handle = none ∧ l.suffix = none ∧ b = []
  | some (h, s, m) => ∃ H U y z, h = cutText H ∧ s = cutText U ∧ m = l.tagMark ∧ AnchorText H ∧ SuffixOk U ∧
      StrAt (some (textBytes H)) l.handle y ∧ StrAt (some (textBytes U)) l.suffix z ∧ b = y ++ z

/-- The anchor of a node. -/
def AncOk (a : Option Text) : Prop := Strict.strict → ∀ x ∈ a, AnchorText x

/-- The properties of a node and their blocks. -/
def PropsAt (p : Props) (l : HProps) (b : Blocks) : Prop :=
  ∃ (a : Option Text) (x y : Blocks), (p.anchor = a.map cutText ∧ AncOk a) ∧ StrAt (a.map textBytes) l.anchor x ∧ TagPropAt p.tag l y ∧ l.start = p.start ∧ l.stop = p.stop ∧ b = x ++ y

theorem frees_props {l : HProps} {o1 o2 o3 o4 : Option (List UInt8)} {tag : Ptr} {x y z w b : Blocks} (h1 : StrAt o1 l.anchor x) (h2 : StrAt o2 l.handle y)
    (h3 : StrAt o3 l.suffix z) (h4 : StrAt o4 tag w) (hb : b.Perm (x ++ (y ++ (z ++ w)))) : Frees (freeProps l tag) b := by
  intro A base bs bs' h Q e hp hQ
  unfold freeProps
  have hp := hp.trans (hb.append_right bs')
  rw [hw_bind]
  refine hw_free_str (bs' := y ++ (z ++ (w ++ bs'))) e h1 (by blocks_by hp) fun h' e => ?_
  rw [hw_bind]
  refine hw_free_str (bs' := z ++ (w ++ bs')) e h2 (List.Perm.refl _) fun h' e => ?_
  rw [hw_bind]
  refine hw_free_str (bs' := w ++ bs') e h3 (List.Perm.refl _) fun h' e => ?_
  exact hw_free_str e h4 (List.Perm.refl _) hQ

theorem PropsAt.frees {p : Props} {l : HProps} {b : Blocks} (h : PropsAt p l b) : Frees (freeProps l none) b := by
  obtain ⟨a, x, y, h1, h2, h3, h4, h5, rfl⟩ := h
  unfold TagPropAt at h3
  cases hp : p.tag with
  | none =>
    rw [hp] at h3
    obtain ⟨k1, k2, rfl⟩ := h3
    exact frees_props (o2 := none) (o3 := none) (o4 := none) (y := []) (z := []) (w := []) h2 ⟨k1, rfl⟩ ⟨k2, rfl⟩ ⟨rfl, rfl⟩ (List.Perm.refl _)
  | some t =>
    obtain ⟨H, S, m⟩ := t
    rw [hp] at h3
    obtain ⟨H, U, y1, z1, k1, k2, k3, k4, k5, k6, k7, rfl⟩ := h3
    exact frees_props (o4 := none) (w := []) h2 k6 k7 ⟨rfl, rfl⟩ (by blocks)

section
variable {A : Prop} {base : Nat → Option Obj} {J : List TagDir → Prop} {P : HPS ρ → PS σ → Blocks → Prop} {c : Option (HToken × Token)} {l : Blocks}
  {Q : β' → β → HPS ρ → PS σ → Blocks → Prop}

/-- The properties and the token behind them. -/
def HPropsPost (r' : HProps × HToken) (r : Props × Token) (p : HPS ρ) (s : PS σ) (b : Blocks) : Prop :=
  ∃ x, (PropsAt r.1 r'.1 x ∧ ∃ w, TokenAt r.2 r'.2 w) ∧ St AnyDirs (some (r'.2, r.2)) x p s b

theorem hrel_propsRet {r' : HProps × HToken} {r : Props × Token} {w : Blocks} (h1 : PropsAt r.1 r'.1 l) (h2 : TokenAt r.2 r'.2 w) :
    HRel A base (St AnyDirs (some (r'.2, r.2)) l) (pure r') (pure r) (HPropsPost (ρ := ρ) (σ := σ)) :=
  hrel_pure fun _ _ _ h => ⟨l, ⟨h1, w, h2⟩, h⟩

theorem hrel_parseProps {H : HSrc ρ} {S : TokSrc σ} (hS : Link H S) {ht : HToken} {t : Token} {w : Blocks} (hx : TokenAt t ht w) :
    HRel A base (St AnyDirs (some (ht, t)) []) (hParseProps H ht) (parseProps (cutSrc S) t) HPropsPost := by
  unfold hParseProps parseProps
  have hx' := hx
  obtain ⟨T, h1, h2, h3, h4, h5⟩ := hx
  have none' : HRel A base (St AnyDirs (some (ht, t)) []) (pure (({ start := ht.start, stop := ht.start } : HProps), ht))
      (pure (({ start := t.start, stop := t.start } : Props), t)) (HPropsPost (ρ := ρ) (σ := σ)) :=
    hrel_propsRet (r' := (_, ht)) (r := (_, t)) ⟨none, [], [], ⟨rfl, fun _ x hx => by cases hx⟩, ⟨rfl, rfl⟩, ⟨rfl, rfl, rfl⟩, h4, h4, rfl⟩ hx'
  cases T with
  | anchor a =>
    obtain ⟨p, h6, h7⟩ := h3
    simp only [h1, cutTok, h6]
    refine hrel_skipB fun x hx => ?_
    obtain ⟨a', j1, j2, j3⟩ := tok_anchor hx h6
    rw [h1] at j1
    simp only [cutTok, TokData.anchor.injEq] at j1
    rw [j1, List.append_nil]
    unfold hAfterAnchor
    have hp : PropsAt { anchor := some (cutText a'), start := t.start, stop := t.stop } { anchor := p, start := ht.start, stop := ht.stop } x :=
      ⟨some a', x, [], ⟨rfl, fun hs y hy => by cases hy; exact j3 hs⟩, j2, ⟨rfl, rfl, rfl⟩, h4, h5, by simp⟩
    refine hrel_peekF hS hp.frees fun ht2 t2 w hw => ?_
    have hw' := hw
    obtain ⟨T, g1, g2, g3, g4, g5⟩ := hw
    have done := hrel_propsRet (A := A) (base := base) (ρ := ρ) (σ := σ) (r' := (_, ht2)) (r := (_, t2)) hp hw'
    cases T with
    | tag H U =>
      obtain ⟨q, r, y, z, g6, g7, g8, g9⟩ := g3
      simp only [g1, cutTok, g6]
      refine hrel_skipB fun x2 hx2 => ?_
      obtain ⟨H', U', y, z, i1, i2, i3, i4, i5, i6⟩ := tok_tag hx2 g6
      rw [g1] at i1
      simp only [cutTok, TokData.tag.injEq] at i1
      rw [i1.1, i1.2]
      have hp2 : PropsAt { anchor := some (cutText a'), tag := some (cutText H', cutText U', t2.start), start := t.start, stop := t2.stop }
          { anchor := p, handle := q, suffix := r, tagMark := ht2.start, start := ht.start, stop := ht2.stop } (x ++ x2) :=
        ⟨some a', x, x2, ⟨rfl, fun hs y hy => by cases hy; exact j3 hs⟩, j2, ⟨H', U', y, z, rfl, rfl, g4.symm, i2, i3, i4, i5, i6⟩, h4, g5, rfl⟩
      refine hrel_locals (l' := x ++ x2) ?_ (by blocks)
      refine hrel_peekF hS hp2.frees fun ht3 t3 w hw => ?_
      exact hrel_propsRet (r' := (_, ht3)) (r := (_, t3)) hp2 hw
    | tagDirective T => obtain ⟨p, q, _, _, g3, _⟩ := g3; simp only [g1, cutTok, g3]; exact done
    | scalar T U => obtain ⟨p, g3, _⟩ := g3; simp only [g1, cutTok, g3]; exact done
    | anchor T => obtain ⟨p, g3, _⟩ := g3; simp only [g1, cutTok, g3]; exact done
    | «alias» T => obtain ⟨p, g3, _⟩ := g3; simp only [g1, cutTok, g3]; exact done
    | _ => simp only [g1, cutTok, g3.1]; exact done
  | tag H U =>
    obtain ⟨q, r, y, z, g6, g7, g8, g9⟩ := h3
    simp only [h1, cutTok, g6]
    refine hrel_skipB fun x2 hx2 => ?_
    obtain ⟨H', U', y, z, i1, i2, i3, i4, i5, i6⟩ := tok_tag hx2 g6
    rw [h1] at i1
    simp only [cutTok, TokData.tag.injEq] at i1
    rw [i1.1, i1.2, List.append_nil]
    unfold hAfterTag
    have hp : PropsAt { tag := some (cutText H', cutText U', t.start), start := t.start, stop := t.stop }
        { handle := q, suffix := r, tagMark := ht.start, start := ht.start, stop := ht.stop } x2 :=
      ⟨none, [], x2, ⟨rfl, fun _ x hx => by cases hx⟩, ⟨rfl, rfl⟩, ⟨H', U', y, z, rfl, rfl, h4.symm, i2, i3, i4, i5, i6⟩, h4, h5, rfl⟩
    refine hrel_peekF hS hp.frees fun ht2 t2 w hw => ?_
    have hw' := hw
    obtain ⟨T, g1, g2, g3, g4, g5⟩ := hw
    have done := hrel_propsRet (A := A) (base := base) (ρ := ρ) (σ := σ) (r' := (_, ht2)) (r := (_, t2)) hp hw'
    cases T with
    | anchor a =>
      obtain ⟨p, g6, g7⟩ := g3
      simp only [g1, cutTok, g6]
      refine hrel_skipB fun x hx => ?_
      obtain ⟨a', j1, j2, j3⟩ := tok_anchor hx g6
      rw [g1] at j1
      simp only [cutTok, TokData.anchor.injEq] at j1
      rw [j1]
      have hp2 : PropsAt { anchor := some (cutText a'), tag := some (cutText H', cutText U', t.start), start := t.start, stop := t2.stop }
          { anchor := p, handle := q, suffix := r, tagMark := ht.start, start := ht.start, stop := ht2.stop } (x ++ x2) :=
        ⟨some a', x, x2, ⟨rfl, fun hs y hy => by cases hy; exact j3 hs⟩, j2, ⟨H', U', y, z, rfl, rfl, h4.symm, i2, i3, i4, i5, i6⟩, h4, g5, rfl⟩
      refine hrel_peekF hS hp2.frees fun ht3 t3 w hw => ?_
      exact hrel_propsRet (r' := (_, ht3)) (r := (_, t3)) hp2 hw
    | tagDirective T => obtain ⟨p, q, _, _, g3, _⟩ := g3; simp only [g1, cutTok, g3]; exact done
    | scalar T U => obtain ⟨p, g3, _⟩ := g3; simp only [g1, cutTok, g3]; exact done
    | tag T U => obtain ⟨p, q, _, _, g3, _⟩ := g3; simp only [g1, cutTok, g3]; exact done
    | «alias» T => obtain ⟨p, g3, _⟩ := g3; simp only [g1, cutTok, g3]; exact done
    | _ => simp only [g1, cutTok, g3.1]; exact done
  | tagDirective T => obtain ⟨p, q, _, _, h3, _⟩ := h3; simp only [h1, cutTok, h3]; exact none'
  | scalar T U => obtain ⟨p, h3, _⟩ := h3; simp only [h1, cutTok, h3]; exact none'
  | «alias» T => obtain ⟨p, h3, _⟩ := h3; simp only [h1, cutTok, h3]; exact none'
  | _ => simp only [h1, cutTok, h3.1]; exact none'

/-! ### The tag of a node -/

/-- A resolved tag. -/
def TagOk (T : Option Text) : Prop := ∀ u ∈ T, SuffixOk u

/-- The anchor and the resolved tag. -/
def TagPost (cur : Option (HToken × Token)) (anchor : Ptr) (A : Option Text) (tp : Ptr) (t : Option Text) (p : HPS ρ) (s : PS σ) (b : Blocks) : Prop :=
  ∃ (T : Option Text) (x y : Blocks), (StrAt (A.map textBytes) anchor x ∧ StrAt (T.map textBytes) tp y ∧ t = T.map cutText ∧ TagOk T) ∧ St AnyDirs cur (x ++ y) p s b

theorem hw_first {bs : Blocks} {h : Heap} {b : List UInt8} {p : Ptr} {x : Blocks} {Q : UInt8 → Heap → Prop} (e : Ext A base bs h) (hs : StrAt (some b) p x)
    (hx : ∀ y ∈ x, y ∈ bs) (hQ : ∀ a r, b ++ [0] = a :: r → Q a h) : hw (hFirst p) Q h := by
  obtain ⟨a, z, rfl, rfl⟩ := hs
  unfold hFirst
  rw [hw_bind]
  refine hw_load e (hx _ List.mem_cons_self) ?_
  cases b with
  | nil => exact hQ 0 [] rfl
  | cons c b => exact hQ c (b ++ [0]) rfl

theorem resolveTagM_run (p : Props) (s : PS σ) : resolveTagM p s = match resolveTag s.tags p with
    | .error e => .error e
    | .ok t => .ok (t, s) := by
  unfold resolveTagM
  rw [pm_bind]
  unfold getTags
  simp only
  cases resolveTag s.tags p <;> rfl

/-- The first byte of a text says whether it is empty. -/
theorem first_zero {t : Text} (h : ∀ c ∈ t, Storable c) {a : UInt8} {r : List UInt8} (hb : textBytes t ++ [0] = a :: r) : a = 0 ↔ cutText t = [] := by
  cases t with
  | nil => cases hb; simp [cutText]
  | cons c t =>
    have e1 : textBytes (c :: t) = octets c ++ textBytes t := rfl
    by_cases h0 : c = 0
    · subst h0
      have e2 : octets 0 = [0] := by decide
      rw [e1, e2] at hb
      cases hb
      simp [cutText]
    · have hn := octets_ne_zero h0 (h c List.mem_cons_self)
      cases hu : octets c with
      | nil => exact absurd hu (octets_ne_nil c)
      | cons b bs =>
        rw [e1, hu] at hb
        cases hb
        constructor
        · rintro rfl
          exact absurd (by rw [hu]; exact List.mem_cons_self) hn
        · intro hx
          unfold cutText at hx
          rw [List.takeWhile_cons, if_pos (by simpa using h0)] at hx
          cases hx

theorem hrel_lookup {lp : HProps} {y : Blocks} {H : Text} {k' : Option (Ptr × Ptr) → HP ρ β'} {k : Option TagDir → PM σ β}
    (hs : StrAt (some (textBytes H)) lp.handle y) (hy : ∀ z ∈ y, z ∈ l) (hH : AnchorText H) (h0 : HRel A base (St AnyDirs c l) (k' none) (k none) Q)
    (h1 : ∀ d p q z, CDir d → StrAt (some (textBytes d.pfx)) q z → HRel A base (fun hp s b => St AnyDirs c l hp s b ∧ ∀ w ∈ z, w ∈ b) (k' (some (p, q))) (k (some d)) Q) :
    HRel A base (St AnyDirs c l) (hLookupTag lp >>= k') (fun s => k (s.tags.find? fun d => d.handle == H) s) Q := by
  intro p s b fr h hst e hu hf
  have hst' := hst
  obtain ⟨b0, ho, hc, hb⟩ := hst
  obtain ⟨x1, x2, x3, x4, x5, k1, k2, k3, k4, k5, k6, k8, k9, k10⟩ := ho
  have k3' := k3
  obtain ⟨a, n, vs, w, k11, k12, k13, k14⟩ := k3'
  have hin : ∀ z ∈ x3, z ∈ b := fun z hz => hb.mem_iff.mpr (List.mem_append_right _
    (k10.mem_iff.mpr (List.mem_append_right _ (List.mem_append_right _ (List.mem_append_left _ hz)))))
  have key : hw (hLookupTag lp p) (fun r h' => h' = h ∧ ∃ o, r = (.ok o, p) ∧ ((s.tags.find? (fun d => d.handle == H) = none ∧ o = none) ∨
      ∃ d p q z, s.tags.find? (fun d => d.handle == H) = some d ∧ o = some (p, q) ∧ StrAt (some (textBytes d.pfx)) q z ∧ ∀ u ∈ z, u ∈ b)) h := by
    unfold hLookupTag
    rw [hw_bind]
    refine hw_string e hs (fun z hz => List.mem_append_left _ (hb.mem_iff.mpr (List.mem_append_left _ (hy z hz)))) (ctext_zero hH.ctext) ?_
    rw [hw_bind, k11]
    refine hw_findTag (vs := vs) (pre := []) (x := w) (n := n) (ds := s.tags) e (List.mem_append_left _ (hin _ (by rw [k14]; exact List.mem_cons_self)))
      (fun z hz => List.mem_append_left _ (hin z (by rw [k14]; exact List.mem_cons_of_mem _ hz))) k13 k6 hH rfl rfl ?_ ?_
    · exact fun hnone => ⟨rfl, none, rfl, .inl ⟨hnone, rfl⟩⟩
    · exact fun d p q z hsome hz hz2 => ⟨rfl, some (p, q), rfl, .inr ⟨d, p, q, z, hsome, rfl, hz, fun u hu => hin u (by rw [k14]; exact List.mem_cons_of_mem _ (hz2 u hu))⟩⟩
  rw [hw_hp_bind]
  obtain ⟨r, h', j0, rfl, o, rfl, j1⟩ := hw_out key
  refine hw_run j0 ?_
  simp only at hu hf ⊢
  rcases j1 with ⟨j1, rfl⟩ | ⟨d, p1, q1, z, j1, rfl, j2, j3⟩
  · rw [j1] at hu hf ⊢
    exact h0 p s b fr h' hst' e hu hf
  · rw [j1] at hu hf ⊢
    exact h1 d p1 q1 z (k6 d (List.mem_of_find?_eq_some j1)) j2 p s b fr h' ⟨hst', j3⟩ e hu hf

theorem hrel_resolve {P : Props} {lp : HProps} (hp : PropsAt P lp l) : ∃ a : Option Text, (P.anchor = a.map cutText ∧ AncOk a) ∧
    HRel A base (St AnyDirs c l) (hResolveTag lp) (resolveTagM P) (TagPost (ρ := ρ) (σ := σ) c lp.anchor a) := by
  have hF := hp.frees
  obtain ⟨a, x, y, h1, h2, h3, h4, h5, h6⟩ := hp
  refine ⟨a, h1, ?_⟩
  unfold hResolveTag
  cases ht : P.tag with
  | none =>
    rw [ht] at h3
    obtain ⟨k1, k2, rfl⟩ := h3
    rw [k1, if_pos (by rfl)]
    have hv : resolveTagM P = (pure none : PM σ (Option Text)) := by
      funext s
      rw [resolveTagM_run]
      unfold resolveTag
      rw [ht]
      rfl
    rw [hv]
    exact hrel_pure fun p s b hst => ⟨none, x, [], ⟨h2, ⟨rfl, rfl⟩, rfl, fun u hu => by cases hu⟩, by rw [← h6]; exact hst⟩
  | some t =>
    obtain ⟨h', s', m⟩ := t
    rw [ht] at h3
    obtain ⟨H, U, y1, z1, k1, k2, k3, k4, k5, k6, k7, rfl⟩ := h3
    have hH := cut_of_ctext k4.ctext
    rw [hH] at k1
    have hsome : lp.handle.isNone = false := by obtain ⟨q, _, hq, _⟩ := k6; rw [hq]; rfl
    rw [if_neg (by rw [hsome]; simp)]
    by_cases h0 : H = []
    · subst h0
      have hv : resolveTagM P = (pure (some (cutText U)) : PM σ (Option Text)) := by
        funext s
        rw [resolveTagM_run]
        unfold resolveTag
        simp only [ht, k1, if_true, k2]
        rfl
      rw [hv]
      refine hrel_readB (a := (0 : UInt8)) (fun bs h R e hin hR => hw_first e k6 (fun z hz => hin z (by rw [h6]; simp [hz])) fun b r hb => ?_) ?_
      · cases hb
        exact hR
      · rw [if_pos (by rfl)]
        refine hrel_freeB (frees_str k6) (L := x ++ z1) (by rw [h6]; blocks) ?_
        refine hrel_pure fun p s b hst => ⟨some U, x, z1, ⟨h2, k7, rfl, fun u hu => ?_⟩, hst⟩
        cases hu
        exact k5
    · obtain ⟨b, r, hb⟩ : ∃ b r, textBytes H ++ [0] = b :: r := by
        cases hh : textBytes H ++ [0] with
        | nil => simp at hh
        | cons b r => exact ⟨b, r, rfl⟩
      have hbz : ¬ b = 0 := fun hz => h0 (by rw [← hH]; exact (first_zero (fun c hc => (k4.ctext c hc).2) hb).mp hz)
      refine hrel_readB (a := b) (fun bs h R e hin hR => hw_first e k6 (fun z hz => hin z (by rw [h6]; simp [hz])) fun b' r' hb' => ?_) ?_
      · rw [hb] at hb'
        cases hb'
        exact hR
      rw [if_neg hbz]
      have hv : resolveTagM P = (fun s => (match s.tags.find? (fun d => d.handle == H) with
          | some d => pure (some (d.pfx ++ cutText U))
          | none => pfail (.parser (some "while parsing a node") P.start "found undefined tag handle" m) : PM σ (Option Text)) s) := by
        funext s
        rw [resolveTagM_run]
        unfold resolveTag
        simp only [ht, k1, k2, if_neg h0]
        cases s.tags.find? (fun d => d.handle == H) <;> rfl
      rw [hv]
      refine hrel_lookup (k := fun o => match o with
          | some d => pure (some (d.pfx ++ cutText U))
          | none => pfail (.parser (some "while parsing a node") P.start "found undefined tag handle" m)) k6 (fun z hz => by rw [h6]; simp [hz]) k4 ?_ ?_
      · simp only [h4, ← k3]
        exact hrel_stop hF
      · intro d p1 q1 z hd hz
        simp only
        unfold hJoinTag
        have hT : cutText (d.pfx ++ cutText U) = d.pfx ++ cutText U := cut_of_ctext fun c hc => by
          rcases List.mem_append.mp hc with hc | hc
          · exact hd.2 c hc
          · exact cut_ctext k5.1 c hc
        have hb : textBytes d.pfx ++ textBytes (cutText U) = textBytes (d.pfx ++ cutText U) := (textBytes_append _ _).symm
        refine hrel_lift fun p s b fr h hst e => ?_
        refine hw_string e hz (fun w hw => List.mem_append_left _ (hst.2 w hw)) (ctext_zero hd.2) ?_
        refine ⟨St AnyDirs c l, b, hst.1, e, ?_⟩
        refine hrel_readB (a := textBytes (cutText U)) (fun bs h R e hin hR => hw_cstring e k7 (fun z hz => hin z (by rw [h6]; simp [hz])) k5.1 hR) ?_
        refine hrel_mallocB (fun ha => ?_) fun q => ?_
        · rw [if_pos (by rfl)]
          exact hrel_nomem ha hF
        · rw [if_neg (by simp)]
          refine hrel_freeB (frees_str k6) (L := x ++ ((q, Obj.bytes (textBytes (d.pfx ++ cutText U) ++ [0])) :: z1)) (by rw [h6, hb]; blocks) ?_
          refine hrel_freeB (frees_str k7) (L := x ++ [(q, Obj.bytes (textBytes (d.pfx ++ cutText U) ++ [0]))]) (by blocks) ?_
          refine hrel_pure fun p s b hst => ⟨some (d.pfx ++ cutText U), x, _, ⟨h2, ⟨q, [], rfl, rfl⟩, ?_, fun u hu => ?_⟩, hst⟩
          · rw [Option.map_some, hT]
          · cases hu
            have hC : CText (d.pfx ++ cutText U) := fun c hc => by
              rcases List.mem_append.mp hc with hc | hc
              · exact hd.2 c hc
              · exact cut_ctext k5.1 c hc
            exact ⟨fun c hc => (hC c hc).2, fun _ => hC⟩

end

end LibYaml
