import Verif.Proofs.EmitterHeapStacks
import Verif.Proofs.TagScan

/-!
# The emitter on the heap: strings and tag directives
-/

namespace LibYaml

open Spec

variable {ω α α' β β' : Type}

/-! ### Strings -/

theorem apiText_textBytes {t : Text} (h : ∀ c ∈ t, c < 0x200000) : apiText (textBytes t) = some t :=
  (decodeText_iff _ _ _ (Nat.le_refl _)).mpr ⟨textBytes_utf8s h, h⟩

theorem decodeOctets_textBytes {t : Text} {n : Nat} (h : ∀ c ∈ t, Storable c) (hn : (textBytes t).length ≤ n) : decodeOctets n (textBytes t) = some t := by
  induction t generalizing n with
  | nil => cases n <;> rfl
  | cons c t ih =>
    obtain ⟨b, bs, h1, h2, h3, h4⟩ := storable_octets (h c List.mem_cons_self)
    have e : textBytes (c :: t) = b :: (bs ++ textBytes t) := by
      have : textBytes (c :: t) = octets c ++ textBytes t := List.flatMap_cons
      rw [this, h1]; rfl
    rw [e] at hn ⊢
    cases n with
    | zero => exact absurd hn (Nat.not_succ_le_zero _)
    | succ n =>
      simp only [List.length_cons, List.length_append] at hn
      unfold decodeOctets
      dsimp only
      rw [h2, Nat.add_sub_cancel, if_neg (by simp), List.take_left, List.drop_left, if_pos (by simpa using h3), ih (fun x hx => h x (List.mem_cons_of_mem _ hx)) (by omega), h4]
      rfl

theorem ctext_inj {a b : Text} (ha : CText a) (hb : CText b) (h : textBytes a = textBytes b) : a = b := by
  have h1 := decodeOctets_textBytes (fun c hc => (ha c hc).2) (Nat.le_refl _)
  have h2 := decodeOctets_textBytes (fun c hc => (hb c hc).2) (Nat.le_refl _)
  rw [h, h2] at h1
  injection h1 with h1
  exact h1.symm

section
variable {A : Prop} {base : Nat → Option Obj} {bs bs' : Blocks} {h : Heap}

theorem hw_decode {t : Text} {Q : Text → Heap → Prop} (ht : ∀ c ∈ t, Storable c) (hQ : Q t h) : hw (hDecode (textBytes t)) Q h := by
  unfold hDecode
  rw [decodeOctets_textBytes ht (Nat.le_refl _)]
  exact hQ

theorem hw_bytesStr {t : Text} {p : Ptr} {x : Blocks} {Q : List UInt8 → Heap → Prop} (e : Ext A base bs h) (hs : StrAt (some (textBytes t)) p x)
    (hx : ∀ y ∈ x, y ∈ bs) (h0 : CText t) (hQ : Q (textBytes t) h) : hw (hString p) Q h :=
  hw_string e hs hx (ctext_zero h0) hQ

theorem hw_text {t : Text} {p : Ptr} {x : Blocks} {Q : Text → Heap → Prop} (e : Ext A base bs h) (hs : StrAt (some (textBytes t)) p x)
    (hx : ∀ y ∈ x, y ∈ bs) (h0 : CText t) (hQ : Q t h) : hw (hText p) Q h := by
  unfold hText
  rw [hw_bind]
  exact hw_bytesStr e hs hx h0 (hw_decode (fun c hc => (h0 c hc).2) hQ)

theorem hw_textN {t : Text} {p : Ptr} {x : Blocks} {Q : Text → Heap → Prop} (e : Ext A base bs h) (hs : StrAt (some (textBytes t)) p x)
    (hx : ∀ y ∈ x, y ∈ bs) (h0 : ∀ c ∈ t, c < 0x200000) (hQ : Q t h) : hw (hTextN p (textBytes t).length) Q h := by
  obtain ⟨a, z, rfl, rfl⟩ := hs
  unfold hTextN
  rw [hw_bind]
  refine hw_load e (hx _ List.mem_cons_self) ?_
  simp only []
  rw [hw_bind]
  refine hw_bytesOf (by simp) ?_
  rw [List.take_left]
  exact hw_decode (fun c hc => .inl (h0 c hc)) hQ

theorem hw_findTagE {ds : List TagDir} {vs pre : List (Ptr × Ptr)} {x : Blocks} {a n top k i : Nat} {H : Text} {Q : Option (Ptr × Ptr) → Heap → Prop}
    (e : Ext A base bs h) (ha : (a, stkObj (pre ++ vs) n) ∈ bs) (hx : ∀ y ∈ x, y ∈ bs) (hd : DirsAt (ds.map dirText) vs x) (hc : ∀ d ∈ ds, LDir d)
    (hH : CText H) (hk : k = vs.length) (hi : i = pre.length) (h0 : (ds.any fun d => d.handle == H) = false → Q none h)
    (h1 : ∀ v, (ds.any fun d => d.handle == H) = true → Q (some v) h) :
    hw (hFindTag (textBytes H) ⟨some a, top⟩ k i) Q h := by
  induction ds generalizing vs pre x k i with
  | nil =>
    obtain ⟨rfl, rfl⟩ := hd
    subst hk
    exact h0 rfl
  | cons d ds ih =>
    obtain ⟨p, q, vs', x1, y1, rest, rfl, j1, j2, j3, rfl⟩ := hd
    rw [List.length_cons] at hk
    subst hk
    obtain ⟨c1, c2⟩ := hc d List.mem_cons_self
    unfold hFindTag
    rw [hw_bind]
    refine hw_get (v := (p, q)) e ha (by rw [hi]; simp) ?_
    rw [hw_bind]
    refine hw_bytesStr e j1 (fun z hz => hx z (List.mem_append_left _ hz)) c1 ?_
    rw [hw_ite]
    by_cases hh : d.handle = H
    · subst hh
      rw [if_pos (by simp), hw_pure]
      exact h1 _ (by simp)
    · rw [if_neg (by
        intro hx
        exact hh (ctext_inj c1 hH (by simpa using hx)))]
      have hf : ((d :: ds).any fun d => d.handle == H) = ds.any fun d => d.handle == H := by
        simp [hh]
      rw [hf] at h0 h1
      exact ih (pre := pre ++ [(p, q)]) (by simpa using ha) (fun z hz => hx z (List.mem_append_right _ (List.mem_append_right _ hz))) j3
        (fun d hd => hc d (List.mem_cons_of_mem _ hd)) rfl (by rw [hi]; simp) h0 h1

/-- The first directive that applies to a tag. -/
theorem hw_fitting {ds : List TagDir} {vs pre : List (Ptr × Ptr)} {x : Blocks} {a n top k i : Nat} {tag : Text} {Q : Option (Ptr × Ptr) → Heap → Prop}
    (e : Ext A base bs h) (ha : (a, stkObj (pre ++ vs) n) ∈ bs) (hx : ∀ y ∈ x, y ∈ bs) (hd : DirsAt (ds.map dirText) vs x) (hc : ∀ d ∈ ds, LDir d)
    (hk : k = vs.length) (hi : i = pre.length) (h0 : ds.find? (fun d => d.fits tag) = none → Q none h)
    (h1 : ∀ d p q y z, ds.find? (fun d => d.fits tag) = some d → StrAt (some (textBytes d.handle)) p y → StrAt (some (textBytes d.pfx)) q z →
      (∀ u ∈ y ++ z, u ∈ x) → Q (some (p, q)) h) :
    hw (hFitting tag ⟨some a, top⟩ k i) Q h := by
  induction ds generalizing vs pre x k i with
  | nil =>
    obtain ⟨rfl, rfl⟩ := hd
    subst hk
    exact h0 rfl
  | cons d ds ih =>
    obtain ⟨p, q, vs', x1, y1, rest, rfl, j1, j2, j3, rfl⟩ := hd
    rw [List.length_cons] at hk
    subst hk
    obtain ⟨c1, c2⟩ := hc d List.mem_cons_self
    unfold hFitting
    rw [hw_bind]
    refine hw_get (v := (p, q)) e ha (by rw [hi]; simp) ?_
    rw [hw_bind]
    refine hw_text e j2 (fun z hz => hx z (List.mem_append_right _ (List.mem_append_left _ hz))) c2 ?_
    rw [hw_ite]
    have hfit : TagDir.fits ⟨[], d.pfx⟩ tag = d.fits tag := rfl
    rw [hfit]
    by_cases hh : d.fits tag = true
    · rw [if_pos hh, hw_pure]
      refine h1 d p q x1 y1 (by simp [hh]) j1 j2 fun u hu => ?_
      rcases List.mem_append.mp hu with hu | hu
      · exact List.mem_append_left _ hu
      · exact List.mem_append_right _ (List.mem_append_left _ hu)
    · rw [if_neg hh]
      have hf : (d :: ds).find? (fun d => d.fits tag) = ds.find? (fun d => d.fits tag) := by
        simp [hh]
      rw [hf] at h0 h1
      refine ih (pre := pre ++ [(p, q)]) (by simpa using ha) (fun z hz => hx z (List.mem_append_right _ (List.mem_append_right _ hz))) j3
        (fun d hd => hc d (List.mem_cons_of_mem _ hd)) rfl (by rw [hi]; simp) h0 ?_
      intro d p q y z k1 k2 k3 k4
      exact h1 d p q y z k1 k2 k3 fun u hu => List.mem_append_right _ (List.mem_append_right _ (k4 u hu))

/-- Popping and freeing all directives. -/
theorem hw_dropTags {ds : List (List UInt8 × List UInt8)} {vs : List (Ptr × Ptr)} {a n : Nat} {T : Blocks} {Q : HStk → Heap → Prop}
    (hd : DirsAt ds vs T) (e : Ext A base bs h) (hp : bs.Perm ((a, stkObj vs n) :: (T ++ bs')))
    (hQ : ∀ h' n', vs.length + n = n' → Ext A base ((a, stkObj ([] : List (Ptr × Ptr)) n') :: bs') h' → Q ⟨some a, 0⟩ h') :
    hw (hDropTags vs.length ⟨some a, vs.length⟩) Q h := by
  induction hn : vs.length generalizing ds vs n T bs h with
  | zero =>
    have : vs = [] := List.length_eq_zero_iff.mp hn
    subst this
    have : T = [] := by
      cases ds with
      | nil => exact hd.2
      | cons d ds =>
        obtain ⟨p, q, vs', x, y, r, h, _⟩ := hd
        cases h
    subst this
    exact hQ h n (by simp) (e.perm hp)
  | succ k ih =>
    obtain ⟨v, ws, hv⟩ : ∃ v ws, vs = ws ++ [v] := by
      rcases List.eq_nil_or_concat vs with rfl | ⟨ws, v, rfl⟩
      · cases hn
      · exact ⟨v, ws, by simp⟩
    subst hv
    have hk : k = ws.length := by simp at hn; omega
    subst hk
    obtain ⟨ds', d, x, y, b', j1, j2, ⟨d', j3⟩, j4⟩ := dirsAt_pop hd
    unfold hDropTags
    rw [hw_bind]
    refine hw_pop e hp fun h1 e1 => ?_
    simp only []
    rw [hw_bind]
    refine hw_free_str (bs' := (a, stkObj ws (n + 1)) :: (y ++ (b' ++ bs'))) e1 j2 ?_ fun h2 e2 => ?_
    · rw [List.perm_iff_count] at j4 ⊢
      intro z
      have := j4 z
      simp only [List.count_append, List.count_cons] at *
      omega
    rw [hw_bind]
    refine hw_free_str (bs' := (a, stkObj ws (n + 1)) :: (b' ++ bs')) e2 j3 (by blocks) fun h3 e3 => ?_
    exact ih j1 e3 (List.Perm.refl _) (fun h' n' hn' e' => hQ h' n' (by simp; omega) e') rfl

end

/-! ### Tag directives of the emitter -/

/-- The queue is known. -/
def EQue (q : List QEv) (p : HEm ω) (s : Emitter) (b : Blocks) : Prop := ∃ T, EHas q T (fun _ => True) p s b

section
variable {W : OutH ω} {A : Prop} {base : Nat → Option Obj} {q : List QEv} {T : Blocks} {I : HEm ω → Prop}

theorem EQue.own {p : HEm ω} {s : Emitter} {b : Blocks} (h : EQue q p s b) : EOwn p s b := by
  obtain ⟨T, h⟩ := h
  exact h.own

/-- Functions that leave the directives alone. -/
theorem erel_que {m : HE ω Unit} {v : EM Unit} (h : ∀ T, ERel W A base (EHas q T fun _ => True) m v (fun _ _ => EHas q T fun _ => True)) :
    ERel W A base (EQue q) m v (fun _ _ => EQue q) := by
  intro p s b fr h' hp e hu
  obtain ⟨T, hp⟩ := hp
  exact erel_post (h T) (fun _ _ _ _ _ hh => ⟨T, hh⟩) p s b fr h' hp e hu

theorem erel_queB {m : HE ω Unit} {v : EM Unit} {k' : Unit → HE ω β'} {k : Unit → EM β} {Q : β' → β → HEm ω → Emitter → Blocks → Prop}
    (h : ∀ T, ERel W A base (EHas q T fun _ => True) m v (fun _ _ => EHas q T fun _ => True)) (hk : ERel W A base (EQue q) (k' ()) (k ()) Q) :
    ERel W A base (EQue q) (m >>= k') (v >>= k) Q :=
  erel_bind (erel_que h) fun _ _ => hk

theorem erel_appendTag {d : TagDir} {dup : Bool} (hd : LDir d) :
    ERel W A base (EQue q) (eAppendTag (textBytes d.handle) (textBytes d.pfx) dup) (appendTagDirective d dup) (fun _ _ => EQue q) := by
  intro p s b fr h hp e hu
  have hp' := hp
  obtain ⟨T, ⟨x1, x2, x3, x4, x5, x6, k1, k2, k3, k4, k5, k6, k7, k8, k9, k10, hb⟩, _⟩ := hp
  have hv : appendTagDirective d dup s = if (s.tags.any fun t => t.handle == d.handle) then (if dup then pure () else failE "duplicate %TAG directive" : EM Unit) s
      else ⟨[(.alloc, s)], .ok (), { s with tags := s.tags ++ [d] }⟩ := by
    unfold appendTagDirective
    rw [em_bind]
    simp only [getE]
    split <;> rfl
  have k8' := k8
  obtain ⟨a, n, vs, k11, k12, k13, k14⟩ := k8'
  unfold eAppendTag
  rw [hw_bind]
  have hin : ∀ z ∈ x4 ++ T, z ∈ b ++ fr := fun z hz =>
    List.mem_append_left _ (hb.mem_iff.mpr (by
      simp only [List.mem_append] at hz ⊢
      rcases hz with hz | hz <;> simp [hz]))
  rw [k11]
  refine hw_findTagE (vs := vs) (pre := []) (x := T) (n := n) (ds := s.tags) e (hin _ (by rw [k14]; exact List.mem_append_left _ List.mem_cons_self))
    (fun z hz => hin z (List.mem_append_right _ hz)) k13 k4 hd.1 rfl rfl ?_ ?_
  · intro hany
    rw [hany] at hv
    simp only [Bool.false_eq_true, if_false] at hv
    rw [hv]
    have hmem : ∀ (h' : Heap) (p' : HEm ω), p' = p → Ext A base (b ++ fr) h' → (A → stackLimit (Ptr × Ptr) p.tags.top) →
        EmPost W A base fr (fun _ _ => EQue q) p.world ⟨[(.alloc, s)], .ok (), { s with tags := s.tags ++ [d] }⟩ ((.error .memory, p') : Except EErr Unit × HEm ω) h' := by
      rintro h' p' rfl e' hA
      refine ⟨s, b, hp'.own, e', ⟨[], [], rfl, rfl⟩, fun a => .inr (.inr ?_)⟩
      have hl := dirsAt_length k13
      rw [List.length_map] at hl
      have := hA a
      rw [k11] at this
      rw [← hl]
      exact this
    unfold eCopyTag
    rw [hw_bind]
    -- without memory
    have out : ∀ (o1 o2 : Option (List UInt8)) (c1 c2 : Ptr) (y z : Blocks) (h' : Heap) (p' : HEm ω), StrAt o1 c1 y → StrAt o2 c2 z →
        Ext A base (y ++ (z ++ (b ++ fr))) h' → p' = p → (A → stackLimit (Ptr × Ptr) p.tags.top) →
        hw (do free c1; free c2; return ((.error .memory, p') : Except EErr Unit × HEm ω))
          (EmPost W A base fr (fun _ _ => EQue q) p.world ⟨[(.alloc, s)], .ok (), { s with tags := s.tags ++ [d] }⟩) h' := by
      intro o1 o2 c1 c2 y z h' p' s1 s2 e' ho hA
      rw [hw_bind]
      refine hw_free_str (bs' := z ++ (b ++ fr)) e' s1 (List.Perm.refl _) fun h2 e2 => ?_
      rw [hw_bind]
      refine hw_free_str (bs' := b ++ fr) e2 s2 (List.Perm.refl _) fun h3 e3 => ?_
      exact hmem h3 p' ho e3 hA
    have two : ∀ (h1 : Heap) (o1 : Option (List UInt8)) (c1 : Ptr) (y : Blocks), StrAt o1 c1 y → Ext A base (y ++ (b ++ fr)) h1 → (c1 = none → ¬ A) →
        (c1 ≠ none → o1 = some (textBytes d.handle)) → hw (do
          let d' ← malloc (.bytes (textBytes d.pfx ++ [0]))
          if c1.isNone || d'.isNone then do
            free c1
            free d'
            return (.error .memory, p)
          else do
            let (ok, tags) ← hPush (c1, d') p.tags
            if ok then return (.ok (), { p with tags })
            else do
              free c1
              free d'
              return (.error .memory, { p with tags }))
          (EmPost W A base fr (fun _ _ => EQue q) p.world ⟨[(.alloc, s)], .ok (), { s with tags := s.tags ++ [d] }⟩) h1 := by
      intro h1 o1 c1 y s1 e1 hn1 ho1
      rw [hw_bind]
      refine hw_malloc e1 (fun h2 e2 ha => ?_) (fun h2 d2 e2 => ?_)
      · rw [hw_ite, if_pos (by simp)]
        exact out o1 none c1 none y [] h2 p s1 ⟨rfl, rfl⟩ e2 rfl fun a => absurd a ha
      · have s2 : StrAt (some (textBytes d.pfx)) (some d2) [(d2, Obj.bytes (textBytes d.pfx ++ [0]))] := ⟨d2, [], rfl, rfl⟩
        rw [hw_ite]
        by_cases hz : c1 = none
        · rw [if_pos (by simp [hz])]
          exact out o1 _ c1 (some d2) y _ h2 p s1 s2 (e2.perm (by blocks)) rfl fun a => absurd a (hn1 hz)
        · have ho1 := ho1 hz
          subst ho1
          rw [if_neg (by simp [hz]), hw_bind]
          obtain ⟨T', j1, j2⟩ := dirsAt_push (d := dirText d) k13 s1 s2
          rw [k11]
          refine hw_push (bs' := T ++ (y ++ ((d2, Obj.bytes (textBytes d.pfx ++ [0])) :: ((qBlocks q ++ (x1 ++ (x2 ++ (x3 ++ (x5 ++ x6))))) ++ fr)))) e2
            (by rw [k14] at hb; blocks_by hb) (fun h3 e3 hA => ?_) (fun h3 a' n' e3 => ?_) k12
          · rw [hw_ite, if_neg (by simp)]
            refine out _ _ c1 (some d2) y _ h3 _ s1 s2 (e3.perm (by blocks)) ?_ fun a => ?_
            · rw [← k11]
            · rw [k11]; exact hA a
          · rw [hw_ite, if_pos rfl]
            refine ⟨(), qBlocks q ++ (T' ++ (x1 ++ (x2 ++ (x3 ++ ([(a', stkObj (vs ++ [(c1, some d2)]) n')] ++ (x5 ++ x6)))))), rfl, rfl,
              ⟨T', ⟨x1, x2, x3, _, x5, x6, congrArg (fun t : Emitter => { t with tags := s.tags ++ [d] }) k1, k2, k3, ?_, k5, k6, k7,
                ⟨a', n', vs ++ [(c1, some d2)], by simp, .inl (by simp), by simpa using j1, rfl⟩, k9, k10, List.Perm.refl _⟩, trivial⟩, e3.perm ?_⟩
            · intro d' hd'
              rcases List.mem_append.mp hd' with hd' | hd'
              · exact k4 d' hd'
              · rw [List.mem_singleton] at hd'
                subst hd'
                exact hd
            · rw [List.perm_iff_count] at j2 ⊢
              intro w
              have := j2 w
              simp only [List.count_append, List.count_cons, List.count_nil] at this ⊢
              omega
    refine hw_malloc e (fun h1 e1 ha => ?_) (fun h1 c1 e1 => ?_)
    · exact two h1 none none [] ⟨rfl, rfl⟩ e1 (fun _ => ha) (fun hx => absurd rfl hx)
    · exact two h1 (some (textBytes d.handle)) (some c1) [(c1, Obj.bytes (textBytes d.handle ++ [0]))] ⟨c1, [], rfl, rfl⟩ e1 (fun hx => by cases hx) (fun _ => rfl)
  · intro v hany
    rw [hany] at hv
    simp only [if_true] at hv
    rw [hv]
    simp only []
    rw [hw_ite]
    cases dup with
    | true =>
      rw [if_pos rfl]
      exact ⟨(), b, rfl, rfl, hp', e⟩
    | false =>
      rw [if_neg (by simp)]
      exact ⟨s, b, hp'.own, e, rfl, rfl, rfl⟩

end

end LibYaml
