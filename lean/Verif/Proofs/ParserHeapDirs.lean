import Verif.Proofs.ParserHeap

/-!
# The parser on the heap: tag directives
-/

namespace LibYaml

open Spec

set_option linter.unusedSectionVars false

variable {ρ σ α α' β β' : Type} [SrcMem ρ] [SrcLink ρ σ] [Strict]

/-! ### C strings -/

theorem cbytes_textBytes {t : Text} {z : List UInt8} (h : ∀ c ∈ t, Storable c) : cbytes (textBytes t ++ 0 :: z) = textBytes (cutText t) := by
  unfold cbytes cutText
  induction t with
  | nil => rfl
  | cons c t ih =>
    have ih := ih fun x hx => h x (List.mem_cons_of_mem _ hx)
    have hc := h c List.mem_cons_self
    have e1 : textBytes (c :: t) = octets c ++ textBytes t := rfl
    rw [e1]
    by_cases h0 : c = 0
    · subst h0
      rfl
    · have hn := octets_ne_zero h0 hc
      rw [List.takeWhile_cons, if_pos (by simpa using h0)]
      have e2 : textBytes (c :: t.takeWhile (fun x => decide (x ≠ 0))) = octets c ++ textBytes (t.takeWhile (fun x => decide (x ≠ 0))) := rfl
      rw [e2, List.append_assoc, List.takeWhile_append_of_pos (by
        intro x hx
        simp only [bne_iff_ne, ne_eq]
        rintro rfl
        exact hn hx), ih]

theorem cut_mem {t : Text} {c : Nat} (h : c ∈ cutText t) : c ∈ t ∧ c ≠ 0 := by
  unfold cutText at h
  induction t with
  | nil => cases h
  | cons x t ih =>
    rw [List.takeWhile_cons] at h
    split at h
    · rename_i hx
      rcases List.mem_cons.mp h with rfl | h
      · exact ⟨List.mem_cons_self, by simpa using hx⟩
      · exact ⟨List.mem_cons_of_mem _ (ih h).1, (ih h).2⟩
    · cases h

theorem cut_ctext {t : Text} (h : ∀ c ∈ t, Storable c) : CText (cutText t) := by
  intro c hc
  exact ⟨(cut_mem hc).2, h c (cut_mem hc).1⟩

omit [Strict] in
theorem cut_of_ctext {t : Text} (h : CText t) : cutText t = t := by
  unfold cutText
  induction t with
  | nil => rfl
  | cons x t ih =>
    rw [List.takeWhile_cons, if_pos (by simpa using (h x List.mem_cons_self).1), ih fun c hc => h c (List.mem_cons_of_mem _ hc)]

section
variable {A : Prop} {base : Nat → Option Obj} {bs : Blocks} {h : Heap}

/-- A string that may have a NUL inside is read up to it. -/
theorem hw_cstring {t : Text} {p : Ptr} {x : Blocks} {Q : List UInt8 → Heap → Prop} (e : Ext A base bs h) (hs : StrAt (some (textBytes t)) p x)
    (hx : ∀ y ∈ x, y ∈ bs) (h0 : ∀ c ∈ t, Storable c) (hQ : Q (textBytes (cutText t)) h) : hw (hString p) Q h := by
  obtain ⟨a, z, rfl, rfl⟩ := hs
  unfold hString
  rw [hw_bind]
  refine hw_load e (hx _ List.mem_cons_self) ?_
  simp only []
  rw [hw_bind]
  refine hw_strlen (by simp) ?_
  refine hw_bytesOf (cbytes_take _).1 ?_
  rw [(cbytes_take _).2, cbytes_textBytes h0]
  exact hQ

theorem hw_findTag {ds : List TagDir} {vs pre : List (Ptr × Ptr)} {x : Blocks} {a n top k i : Nat} {H : Text} {Q : Option (Ptr × Ptr) → Heap → Prop}
    (e : Ext A base bs h) (ha : (a, stkObj (pre ++ vs) n) ∈ bs) (hx : ∀ y ∈ x, y ∈ bs) (hd : DirsAt (ds.map dirText) vs x) (hc : ∀ d ∈ ds, CDir d)
    (hH : AnchorText H) (hk : k = vs.length) (hi : i = pre.length) (h0 : ds.find? (fun d => d.handle == H) = none → Q none h)
    (h1 : ∀ d p q y, ds.find? (fun d => d.handle == H) = some d → StrAt (some (textBytes d.pfx)) q y → (∀ z ∈ y, z ∈ x) → Q (some (p, q)) h) :
    hw (hFindTag (textBytes H) ⟨some a, top⟩ k i) Q h := by
  induction ds generalizing vs pre x k i with
  | nil =>
    obtain ⟨rfl, rfl⟩ := hd
    subst hk
    exact h0 rfl
  | cons d ds ih =>
    obtain ⟨p, q, vs', x1, y1, rest, rfl, j1, j2, j3, rfl⟩ := hd
    rw [List.length_cons] at hk
    subst hk
    obtain ⟨c1, c2⟩ := hc d List.mem_cons_self
    unfold hFindTag
    rw [hw_bind]
    refine hw_get (v := (p, q)) e ha (by rw [hi]; simp) ?_
    rw [hw_bind]
    refine hw_string e j1 (fun z hz => hx z (List.mem_append_left _ hz)) (ctext_zero c1.ctext) ?_
    rw [hw_ite]
    by_cases hh : d.handle = H
    · subst hh
      rw [if_pos (by simp [dirText]), hw_pure]
      refine h1 d p q y1 ?_ j2 fun z hz => List.mem_append_right _ (List.mem_append_left _ hz)
      rw [List.find?_cons_of_pos (by simp)]
    · rw [if_neg (by
        intro hx
        exact hh (anchor_inj c1 hH (by simpa [dirText] using hx)))]
      have hf : (d :: ds).find? (fun d => d.handle == H) = ds.find? (fun d => d.handle == H) := by
        rw [List.find?_cons_of_neg (by simpa using hh)]
      rw [hf] at h0 h1
      refine ih (pre := pre ++ [(p, q)]) (by simpa using ha) (fun z hz => hx z (List.mem_append_right _ (List.mem_append_right _ hz))) j3
        (fun d hd => hc d (List.mem_cons_of_mem _ hd)) rfl (by rw [hi]; simp) h0 ?_
      intro d p q y k1 k2 k3
      exact h1 d p q y k1 k2 fun z hz => List.mem_append_right _ (List.mem_append_right _ (k3 z hz))

theorem dirStk_length {ds : List TagDir} {s : HStk} {x : Blocks} (h : DirStk ds s x) : s.top = ds.length := by
  obtain ⟨a, n, vs, b, rfl, _, h, _⟩ := h
  simpa using dirsAt_length h

/-- Another directive on a stack. -/
theorem hw_dirStk_push {ds : List TagDir} {s : HStk} {x y z bs' : Blocks} {d : TagDir} {p q : Ptr} {Q : Bool × HStk → Heap → Prop} (hs : DirStk ds s x)
    (hp : StrAt (some (textBytes d.handle)) p y) (hq : StrAt (some (textBytes d.pfx)) q z) (e : Ext A base bs h) (hb : bs.Perm (x ++ (y ++ (z ++ bs'))))
    (h0 : ∀ h', Ext A base bs h' → (A → stackLimit (Ptr × Ptr) s.top) → Q (false, s) h')
    (h1 : ∀ h' s' x', DirStk (ds ++ [d]) s' x' → Ext A base (x' ++ bs') h' → Q (true, s') h') : hw (hPush (p, q) s) Q h := by
  obtain ⟨a, n, vs, b, rfl, hv, hd, rfl⟩ := hs
  obtain ⟨b', j1, j2⟩ := dirsAt_push (d := dirText d) hd hp hq
  refine hw_push (bs' := b ++ (y ++ (z ++ bs'))) e hb h0 (fun h' a' n' e' => ?_) hv
  refine h1 h' _ ((a', stkObj (vs ++ [(p, q)]) n') :: b') ⟨a', n', vs ++ [(p, q)], b', by simp, .inl (by simp), ?_, rfl⟩ (e'.perm ?_)
  · simpa using j1
  · rw [List.perm_iff_count] at j2 ⊢
    intro w
    have := j2 w
    simp only [List.count_append, List.count_cons] at this ⊢
    omega

end

section
variable {A : Prop} {base : Nat → Option Obj} {J : List TagDir → Prop} {c : Option (HToken × Token)} {l : Blocks} {Q : β' → β → HPS ρ → PS σ → Blocks → Prop}

theorem appendTagM_run (d : TagDir) (dup : Bool) (mark : Mark) (s : PS σ) : appendTagM d dup mark s = match appendTag d dup mark s.tags with
    | .error e => .error e
    | .ok ts => .ok ((), { s with tags := ts }) := by
  unfold appendTagM
  rw [pm_bind]
  unfold getTags
  simp only
  cases appendTag d dup mark s.tags <;> rfl

theorem hrel_appendTag {d : TagDir} {dup : Bool} {mark : Mark} {J' : List TagDir → Prop} (hd : CDir d)
    (hJ : ∀ ts ts', appendTag d dup mark ts = .ok ts' → J ts → J' ts') :
    HRel A base (St J c []) (hAppendTag (textBytes d.handle) (textBytes d.pfx) dup mark) (appendTagM d dup mark) (fun _ _ (p : HPS ρ) (s : PS σ) b => St J' c [] p s b) := by
  intro p s b fr h hp e hu hf
  rw [appendTagM_run]
  obtain ⟨b0, ho, hc, hb⟩ := hp
  have hb : b.Perm b0 := hb
  have ho' := ho
  obtain ⟨x1, x2, x3, x4, x5, k1, k2, k3, k4, k5, k6, k8, k9, k10⟩ := ho
  have hb2 := hb.trans k10
  have k3' := k3
  obtain ⟨a, n, vs, x, k11, k12, k13, k14⟩ := k3'
  unfold hAppendTag
  rw [hw_bind, k11]
  have hin : ∀ z ∈ x3, z ∈ b ++ fr := fun z hz =>
    List.mem_append_left _ (hb2.mem_iff.mpr (List.mem_append_right _ (List.mem_append_right _ (List.mem_append_left _ hz))))
  refine hw_findTag (vs := vs) (pre := []) (x := x) (n := n) (ds := s.tags) e (hin _ (by rw [k14]; exact List.mem_cons_self))
    (fun z hz => hin z (by rw [k14]; exact List.mem_cons_of_mem _ hz)) k13 k6 hd.1 rfl rfl ?_ ?_
  · intro hnone
    have hany : (s.tags.any fun t => t.handle == d.handle) = false := by
      rw [List.find?_eq_none] at hnone
      rw [List.any_eq_false]
      exact hnone
    unfold appendTag
    simp only [hany, Bool.false_eq_true, if_false]
    have hJ' := fun hx => hJ s.tags (s.tags ++ [d]) (by unfold appendTag; rw [hany]; exact hx) hc.2
    unfold hCopyTag
    rw [hw_bind]
    -- without memory
    have out : ∀ (o1 o2 : Option (List UInt8)) (c1 c2 : Ptr) (y z : Blocks) (h' : Heap) (q : HPS ρ), StrAt o1 c1 y → StrAt o2 c2 z →
        Ext A base (y ++ (z ++ (b ++ fr))) h' → Own q s b0 → (A → Full q) →
        hw (do free c1; free c2; return ((.error .memory, q) : Except Fail Unit × HPS ρ))
          (HPost A base fr (fun _ _ p s b => St J' c [] p s b) (.ok ((), { s with tags := s.tags ++ [d] }))) h' := by
      intro o1 o2 c1 c2 y z h' q s1 s2 e' ho hA
      rw [hw_bind]
      refine hw_free_str (bs' := z ++ (b ++ fr)) e' s1 (List.Perm.refl _) fun h2 e2 => ?_
      rw [hw_bind]
      refine hw_free_str (bs' := b ++ fr) e2 s2 (List.Perm.refl _) fun h3 e3 => ?_
      exact ⟨⟨b0, ho.left, e3.perm (by blocks_by hb)⟩, .inr ⟨rfl, hA⟩⟩
    have two : ∀ (h1 : Heap) (o1 : Option (List UInt8)) (c1 : Ptr) (y : Blocks), StrAt o1 c1 y → Ext A base (y ++ (b ++ fr)) h1 → (c1 = none → ¬ A) →
        (c1 ≠ none → o1 = some (textBytes d.handle)) → hw (do
          let d' ← malloc (.bytes (textBytes d.pfx ++ [0]))
          if c1.isNone || d'.isNone then do
            free c1
            free d'
            return (.error .memory, p)
          else do
            let (ok, tags) ← hPush (c1, d') p.tags
            if ok then return (.ok (), { p with tags })
            else do
              free c1
              free d'
              return (.error .memory, { p with tags }))
          (HPost A base fr (fun _ _ p s b => St J' c [] p s b) (.ok ((), { s with tags := s.tags ++ [d] }))) h1 := by
      intro h1 o1 c1 y s1 e1 hn1 ho1
      rw [hw_bind]
      refine hw_malloc e1 (fun h2 e2 ha => ?_) (fun h2 d2 e2 => ?_)
      · rw [hw_ite, if_pos (by simp)]
        exact out o1 none c1 none y [] h2 p s1 ⟨rfl, rfl⟩ e2 ho' fun a => absurd a ha
      · have s2 : StrAt (some (textBytes d.pfx)) (some d2) [(d2, Obj.bytes (textBytes d.pfx ++ [0]))] := ⟨d2, [], rfl, rfl⟩
        rw [hw_ite]
        by_cases hz : c1 = none
        · rw [if_pos (by simp [hz])]
          exact out o1 _ c1 (some d2) y _ h2 p s1 s2 (e2.perm (by blocks)) ho' fun a => absurd a (hn1 hz)
        · have ho1 := ho1 hz
          subst ho1
          rw [if_neg (by simp [hz]), hw_bind]
          refine hw_dirStk_push (bs' := (x1 ++ (x2 ++ (x4 ++ x5))) ++ fr) k3 s1 s2 e2 (by blocks_by hb2) (fun h3 e3 hA => ?_) (fun h3 s3 x' j1 e3 => ?_)
          · rw [hw_ite, if_neg (by simp)]
            refine out _ _ c1 (some d2) y _ h3 _ s1 s2 (e3.perm (by blocks)) ho' fun a => .inr (.inr (.inl (hA a)))
          · rw [hw_ite, if_pos rfl]
            refine ⟨(), _, x1 ++ (x2 ++ (x' ++ (x4 ++ x5))), rfl, ⟨_, ⟨x1, x2, x', x4, x5, k1, k2, j1, k4, k5, ?_, k8, k9, List.Perm.refl _⟩, ⟨hc.1, hJ' rfl⟩,
              List.Perm.refl _⟩, e3.perm (by blocks)⟩
            intro d' hd'
            rcases List.mem_append.mp hd' with hd' | hd'
            · exact k6 d' hd'
            · rw [List.mem_singleton] at hd'
              subst hd'
              exact hd
    refine hw_malloc e (fun h1 e1 ha => ?_) (fun h1 c1 e1 => ?_)
    · exact two h1 none none [] ⟨rfl, rfl⟩ e1 (fun _ => ha) (fun hx => absurd rfl hx)
    · exact two h1 (some (textBytes d.handle)) (some c1) [(c1, Obj.bytes (textBytes d.handle ++ [0]))] ⟨c1, [], rfl, rfl⟩ e1 (fun hx => by cases hx) (fun _ => rfl)
  · intro d' p' q' y hsome _ _
    have hany : (s.tags.any fun t => t.handle == d.handle) = true := by
      rw [List.any_eq_true]
      exact ⟨d', List.mem_of_find?_eq_some hsome, by simpa using List.find?_some hsome⟩
    unfold appendTag
    simp only [hany, if_true]
    rw [hw_ite]
    cases dup with
    | true =>
      rw [if_pos rfl]
      exact ⟨(), s, b, rfl, ⟨b0, ho', ⟨hc.1, hJ s.tags s.tags (by unfold appendTag; rw [hany]; rfl) hc.2⟩, hb⟩, e⟩
    | false =>
      rw [if_neg (by simp)]
      exact ⟨⟨b0, ho'.left, e.perm (by blocks_by hb)⟩, .inl rfl⟩

/-- The directives of a local variable. -/
def LocAt (ds : List TagDir) (s : HStk) (b : Blocks) : Prop := (ds = [] ∧ s = {} ∧ b = []) ∨ DirStk ds s b

theorem frees_directives {ver : Option Version} {v : Ptr} {x y : Blocks} {ds : List TagDir} {s : HStk} (hv : VersionAt ver v x) (hs : LocAt ds s y) :
    Frees (freeDirectives v s) (x ++ y) := by
  intro A base bs bs' h Q e hp hQ
  unfold freeDirectives
  rw [hw_bind]
  refine hw_free_version (bs' := y ++ bs') e hv (by blocks_by hp) fun h1 e1 => ?_
  rcases hs with ⟨rfl, rfl, rfl⟩ | ⟨a, n, vs, b, rfl, _, hd, rfl⟩
  · rw [hw_bind]
    exact hQ h1 e1
  · rw [hw_bind]
    refine hw_freeDirs (vs := vs) (ws := []) (bs := bs') (by rw [List.append_nil]; exact e1) hd fun h2 e2 => ?_
    exact hw_free e2 (List.Perm.refl _) hQ

theorem hw_run {m : HM α} {R : α → Heap → Prop} {a : α} {h h' : Heap} (hm : m h = .ok (a, h')) (hq : R a h') : hw m R h := by
  unfold hw
  rw [hm]
  exact hq

theorem perm_frame {l b b0 b1 : Blocks} (h3 : b0.Perm ([] ++ b1)) (h4 : b.Perm (l ++ b0)) : b.Perm (l ++ b1) := by
  rw [List.perm_iff_count] at h3 h4 ⊢
  intro z
  have := h3 z
  have := h4 z
  simp only [List.count_append, List.nil_append] at *
  omega

/-- A step that may fail while local variables own something. -/
theorem hrel_orFreeB {J' : List TagDir → Prop} {c' : Option (HToken × Token)} {clean : HM Unit} {m : HP ρ α'} {v : PM σ α}
    (h1 : HRel A base (St J c []) m v (fun _ _ p s b => St J' c' [] p s b)) (hl : Frees clean l) {k' : α' → HP ρ β'} {k : α → PM σ β}
    (h : ∀ a' a, HRel A base (St J' c' l) (k' a') (k a) Q) : HRel A base (St J c l) (orFree m clean >>= k') (v >>= k) Q := by
  refine hrel_bind (hrel_orFree h1 hl) fun a' a => ?_
  rintro p s b fr hp ⟨b0, ⟨b1, k1, k2, k3⟩, k4⟩ e hu hf
  exact h a' a p s b fr hp ⟨b1, k1, k2, perm_frame k3 k4⟩ e hu hf

theorem tok_dir {t : Token} {ht : HToken} {x : Blocks} {p q : Ptr} (h : TokenAt t ht x) (hd : ht.data = .tagDirective p q) :
    ∃ d x1 y1, t.data = .tagDirective (cutDir d) ∧ AnchorText d.handle ∧ (∀ c ∈ d.pfx, Storable c) ∧ StrAt (some (textBytes d.handle)) p x1 ∧
      StrAt (some (textBytes d.pfx)) q y1 ∧ x = x1 ++ y1 ∧ (Strict.strict → cutDir d = d ∧ CText d.handle ∧ CText d.pfx) := by
  obtain ⟨T, h1, h2, h3, _⟩ := h
  cases T with
  | tagDirective d =>
    obtain ⟨p', q', x1, y1, h4, h5, h6, h7⟩ := h3
    rw [hd] at h4
    cases h4
    exact ⟨d, x1, y1, h1, h2.1.1, h2.1.2, h5, h6, h7, fun hs => by
      obtain ⟨c1, c2⟩ := h2.2 hs
      refine ⟨?_, c1.ctext, c2⟩
      unfold cutDir
      rw [cut_of_ctext c1.ctext, cut_of_ctext c2]⟩
  | «alias» T => obtain ⟨p, h3, _⟩ := h3; rw [h3] at hd; cases hd
  | anchor T => obtain ⟨p, h3, _⟩ := h3; rw [h3] at hd; cases hd
  | tag T U => obtain ⟨p, q, _, _, h3, _⟩ := h3; rw [h3] at hd; cases hd
  | scalar T U => obtain ⟨p, h3, _⟩ := h3; rw [h3] at hd; cases hd
  | _ => rw [h3.1] at hd; cases hd

theorem cutDir_cdir {d : TagDir} (h1 : AnchorText d.handle) (h2 : ∀ c ∈ d.pfx, Storable c) : CDir (cutDir d) := by
  refine ⟨?_, cut_ctext h2⟩
  show AnchorText (cutText d.handle)
  rw [cut_of_ctext h1.ctext]
  exact h1

theorem hrel_appendOf {J' : List TagDir → Prop} {ht : HToken} {t : Token} {p q : Ptr} {d : TagDir} {mark : Mark} (hp : ht.data = .tagDirective p q)
    (hd : t.data = .tagDirective d) (hJ : ∀ ts ts', appendTag d false mark ts = .ok ts' → J ts → J' ts') :
    HRel A base (St J (some (ht, t)) []) (hAppendTagOf p q mark) (appendTagM d false mark) (fun _ _ (p : HPS ρ) (s : PS σ) b => St J' (some (ht, t)) [] p s b) := by
  unfold hAppendTagOf
  intro o s b fr h hst e hu hf
  obtain ⟨b0, ho, hc, hb⟩ := hst
  have hb' : b.Perm b0 := hb
  have ho' := ho
  obtain ⟨x1, x2, x3, x4, x5, k1, k2, k3, k4, k5, k6, k8, k9, k10⟩ := ho
  obtain ⟨c1, c2⟩ := hc.1 _ rfl
  simp only at c1 c2
  rw [c1, c2] at k4
  obtain ⟨ht', k11, k12⟩ := k4
  cases k11
  obtain ⟨d', y1, y2, j1, j2, j3, j4, j5, j6, _⟩ := tok_dir k12 hp
  rw [hd] at j1
  cases j1
  have hin : ∀ z ∈ x4, z ∈ b ++ fr := fun z hz => List.mem_append_left _ ((hb'.trans k10).mem_iff.mpr
    (List.mem_append_right _ (List.mem_append_right _ (List.mem_append_right _ (List.mem_append_left _ hz)))))
  rw [hw_hp_bind]
  have r1 := hw_cstring (Q := fun a h' => a = textBytes (cutText d'.handle) ∧ h' = h) e j4
    (fun z hz => hin z (by rw [j6]; exact List.mem_append_left _ hz)) (fun c hc => .inl (by have := j2 c hc; omega)) ⟨rfl, rfl⟩
  have r2 := hw_cstring (Q := fun a h' => a = textBytes (cutText d'.pfx) ∧ h' = h) e j5
    (fun z hz => hin z (by rw [j6]; exact List.mem_append_right _ hz)) j3 ⟨rfl, rfl⟩
  obtain ⟨a1, h1, r1, rfl, rfl⟩ := hw_out r1
  obtain ⟨a2, h2, r2, rfl, rfl⟩ := hw_out r2
  have l1 : hlift (hString p) o h2 = .ok ((.ok (textBytes (cutText d'.handle)), o), h2) := by unfold hlift; rw [r1]
  have l2 : hlift (hString q) o h2 = .ok ((.ok (textBytes (cutText d'.pfx)), o), h2) := by unfold hlift; rw [r2]
  refine hw_run l1 ?_
  simp only
  rw [hw_hp_bind]
  refine hw_run l2 ?_
  simp only
  exact hrel_appendTag (d := cutDir d') (cutDir_cdir j2 j3) hJ o s b fr h2 ⟨b0, ho', hc, hb⟩ e hu hf

theorem versionAt_isSome {ver : Option Version} {v : Ptr} {x : Blocks} (h : VersionAt ver v x) : v.isSome = ver.isSome := by
  cases ver with
  | none => rw [h.1]; rfl
  | some w => obtain ⟨a, rfl, _⟩ := h; rfl

/-- The directives found so far are among those of the parser. -/
def AtLeast (n : Nat) (ts : List TagDir) : Prop := n ≤ ts.length

theorem appendTag_length {d : TagDir} {mark : Mark} {ts ts' : List TagDir} (h : appendTag d false mark ts = .ok ts') : ts'.length = ts.length + 1 := by
  unfold appendTag at h
  split at h
  · cases h
  · cases h; simp

/-- Nothing is behind a NUL in the directives. -/
def DirsOk (ds : List TagDir) : Prop := Strict.strict → ds.map cutDir = ds ∧ ∀ d ∈ ds, CText d.handle ∧ CText d.pfx

theorem hrel_directivesLoop {H : HSrc ρ} {S : TokSrc σ} (hS : Link H S) : ∀ (fuel : Nat) {c : Option (HToken × Token)} {ver : Option Version} {v : Ptr}
    {ds : List TagDir} {ts : HStk} {x y : Blocks}, VersionAt ver v x → DirStk ds ts y → DirsOk ds →
    HRel A base (St (AtLeast ds.length) c (x ++ y)) (hDirectivesLoop H fuel v ts) (directivesLoop (cutSrc S) fuel ver (ds.map cutDir))
      (fun r' r p s b => ∃ ver' ds' x' y', VersionAt ver' r'.1 x' ∧ DirStk ds' r'.2 y' ∧ (r = (ver', ds'.map cutDir) ∧ DirsOk ds') ∧
        St (fun _ => True) none (x' ++ y') p s b)
  | 0, c, ver, v, ds, ts, x, y, hv, hd, hk => fun p s b fr h hp e hu hf => absurd rfl hf
  | fuel + 1, c, ver, v, ds, ts, x, y, hv, hd, hk => by
    unfold hDirectivesLoop directivesLoop
    refine hrel_peekF hS (frees_directives hv (.inr hd)) fun ht t w hw => ?_
    have hw' := hw
    obtain ⟨T, h1, h2, h3, h4, h5⟩ := hw
    have done : HRel A base (St (AtLeast ds.length) (some (ht, t)) (x ++ y)) (pure (v, ts)) (pure (ver, ds.map cutDir))
        (fun r' r (p : HPS ρ) (s : PS σ) b => ∃ ver' ds' x' y', VersionAt ver' r'.1 x' ∧ DirStk ds' r'.2 y' ∧ (r = (ver', ds'.map cutDir) ∧ DirsOk ds') ∧
          St (fun _ => True) none (x' ++ y') p s b) :=
      hrel_pure fun p s b ⟨b0, g1, g2, g3⟩ => ⟨ver, ds, x, y, hv, hd, ⟨rfl, hk⟩, b0, g1, ⟨(fun x hx => by cases hx), trivial⟩, g3⟩
    cases T with
    | versionDirective w =>
      have hpl : t.data.isPlain = true := by rw [h1]; rfl
      simp only [h1, cutTok, h3.1, h4]
      refine hrel_ite (by rw [versionAt_isSome hv]) (fun _ => hrel_stop (frees_directives hv (.inr hd))) fun hn => ?_
      refine hrel_ite Iff.rfl (fun _ => hrel_stop (frees_directives hv (.inr hd))) fun _ => ?_
      have hver : ver = none := by
        cases ver with
        | none => rfl
        | some _ => exact absurd rfl hn
      subst hver
      obtain ⟨rfl, rfl⟩ := hv
      refine hrel_lift fun p s b fr h hst e => ?_
      refine hw_malloc e (fun h' e' ha => ?_) (fun h' a e' => ?_)
      · exact ⟨_, b, hst, e', hrel_nomem ha (frees_directives (ver := none) (x := []) ⟨rfl, rfl⟩ (.inr hd))⟩
      · obtain ⟨b0, g1, g2, g3⟩ := hst
        refine ⟨St (AtLeast ds.length) (some (ht, t)) ([(a, .version w)] ++ y), (a, .version w) :: b, ⟨b0, g1, g2, g3.cons _⟩, e', ?_⟩
        exact hrel_skipP hpl (hrel_directivesLoop hS fuel (ver := some w) ⟨a, rfl, rfl⟩ hd hk)
    | tagDirective d =>
      obtain ⟨p, q, x1, y1, h6, h7, h8, h9⟩ := h3
      simp only [h1, cutTok, h6, h4]
      refine hrel_orFreeB (J' := AtLeast (ds ++ [d]).length) (hrel_appendOf h6 h1 fun ts ts' k1 k2 => ?_) (frees_directives hv (.inr hd)) fun _ _ => ?_
      · have := appendTag_length k1
        unfold AtLeast at k2 ⊢
        simp only [List.length_append, List.length_singleton]
        omega
      intro o s b fr h hst e hu hf
      -- the strings of the token move to the list
      obtain ⟨b0, ho, hc, hb⟩ := hst
      have ho' := ho
      obtain ⟨z1, z2, z3, z4, z5, k1, k2, k3, k4, k5, k6, k8, k9, k10⟩ := ho
      obtain ⟨c1, c2⟩ := hc.1 _ rfl
      simp only at c1 c2
      rw [c1, c2] at k4
      obtain ⟨ht', k11, k12⟩ := k4
      cases k11
      obtain ⟨d', w1, w2, j1, j2, j3, j4, j5, j6, j7⟩ := tok_dir k12 h6
      rw [h1] at j1
      simp only [cutTok, TokData.tagDirective.injEq] at j1
      rw [hw_hp_bind]
      have hperm := hb.trans (k10.append_left (x ++ y))
      rw [j6] at hperm
      have push := hw_dirStk_push (d := d') (bs' := (x ++ (z1 ++ (z2 ++ (z3 ++ z5)))) ++ fr)
        (Q := fun r h' => (∃ e1 : Ext A base (b ++ fr) h', r = (false, ts) ∧ (A → stackLimit (Ptr × Ptr) ts.top)) ∨
          (∃ ts' y', r = (true, ts') ∧ DirStk (ds ++ [d']) ts' y' ∧ Ext A base (y' ++ ((x ++ (z1 ++ (z2 ++ (z3 ++ z5)))) ++ fr)) h')) hd j4 j5 e
        (by blocks_by hperm) (fun h' e1 hA => .inl ⟨e1, rfl, hA⟩) (fun h' ts' y' g1 g2 => .inr ⟨ts', y', rfl, g1, g2⟩)
      obtain ⟨r, h', r1, r2⟩ := hw_out push
      have l1 : hlift (hPush (p, q) ts) o h = .ok ((.ok r, o), h') := by unfold hlift; rw [r1]
      refine hw_run l1 ?_
      simp only
      rcases r2 with ⟨e1, rfl, hA⟩ | ⟨ts', y', rfl, g1, g2⟩
      · simp only [Bool.not_false, if_true]
        unfold hstop
        rw [hw_orFree]
        refine frees_directives hv (.inr hd) A base _ (b0 ++ fr) h' _ e1 (by blocks_by hb) fun h'' e2 => ?_
        refine ⟨⟨b0, ho'.left, e2⟩, .inr ⟨rfl, fun a => .inr (.inr (.inl ?_))⟩⟩
        have i1 := hA a
        have i2 := hc.2
        have i3 := dirStk_length hd
        have i4 := dirStk_length k3
        unfold stackLimit at i1 ⊢
        unfold AtLeast at i2
        simp only [List.length_append, List.length_singleton] at i2
        refine Nat.le_trans i1 (Nat.mul_le_mul_right _ ?_)
        show ts.top ≤ o.tags.top
        omega
      · simp only [Bool.not_true, Bool.false_eq_true, if_false]
        have rest : HRel A base (St (AtLeast (ds ++ [d']).length) none (x ++ y')) (hDirectivesLoop H fuel v ts')
            (directivesLoop (cutSrc S) fuel ver ((ds ++ [d']).map cutDir)) _ :=
          hrel_directivesLoop hS fuel hv g1 fun hs => ⟨by rw [List.map_append, (hk hs).1, List.map_cons, List.map_nil, (j7 hs).1], fun x hx => by
            rcases List.mem_append.mp hx with hx | hx
            · exact (hk hs).2 x hx
            · rw [List.mem_singleton.mp hx]; exact (j7 hs).2⟩
        rw [hw_hp_bind]
        have l2 : hSkip o h' = .ok ((.ok (), { o with avail := none, ended := decide (ht.data = .plain .streamEnd) }), h') := by
          unfold hSkip
          simp only [c1]
        refine hw_run l2 ?_
        simp only
        have hdl : ds.map cutDir ++ [cutDir d] = (ds ++ [d']).map cutDir := by simp [j1]
        have hend : decide (ht.data = .plain .streamEnd) = (t.data == .streamEnd) := by
          rw [h6, h1]
          rfl
        have hv2 : (skipTok >>= fun _ => directivesLoop (cutSrc S) fuel ver (ds.map cutDir ++ [cutDir d])) s =
            directivesLoop (cutSrc S) fuel ver ((ds ++ [d']).map cutDir) { s with avail := none, ended := (t.data == .streamEnd) } := by
          rw [pm_bind]
          unfold skipTok
          simp only [c2, hdl]
        rw [hv2] at hu hf ⊢
        refine rest _ _ (x ++ y' ++ (z1 ++ (z2 ++ (z3 ++ z5)))) fr h' ⟨z1 ++ (z2 ++ (z3 ++ z5)), ⟨z1, z2, z3, [], z5, k1, k2, k3, ⟨rfl, rfl⟩, k5, k6,
          hend, k9, List.Perm.refl _⟩, ⟨(fun x hx => by cases hx), ?_⟩, List.Perm.refl _⟩ (g2.perm (by blocks)) hu hf
        have := hc.2
        unfold AtLeast at this ⊢
        simpa using this
    | scalar w st => obtain ⟨p, h6, _⟩ := h3; simp only [h1, cutTok, h6]; exact done
    | tag w st => obtain ⟨p, q, _, _, h6, _⟩ := h3; simp only [h1, cutTok, h6]; exact done
    | anchor w => obtain ⟨p, h6, _⟩ := h3; simp only [h1, cutTok, h6]; exact done
    | «alias» w => obtain ⟨p, h6, _⟩ := h3; simp only [h1, cutTok, h6]; exact done
    | _ => simp only [h1, cutTok, h3.1]; exact done

end

end LibYaml
