import Verif.Proofs.HeapDirs

/-!
# Event constructors on the heap
-/

namespace LibYaml

/-- The buffers of the caller are large enough: C strings end with a NUL, and a scalar has `length` bytes. -/
def EvCall.Defined : EvCall → Prop
  | .documentStart _ ts _ => ∀ d ∈ ts, DirDef d
  | .alias a => 0 ∈ a
  | .scalar a t v n _ _ _ => OptDef a ∧ OptDef t ∧ ValueDef v n
  | .sequenceStart a t _ _ => OptDef a ∧ OptDef t
  | .mappingStart a t _ _ => OptDef a ∧ OptDef t
  | _ => True

/-- Every string argument is valid UTF-8. -/
def EvCall.Valid : EvCall → Prop
  | .documentStart _ ts _ => ∀ d ∈ ts, DirOk d
  | .alias a => checkUtf8 (cbytes a) = true
  | .scalar a t v n _ _ _ => OptOk a ∧ OptOk t ∧ checkUtf8 (valueBytes v n) = true
  | .sequenceStart a t _ _ => OptOk a ∧ OptOk t
  | .mappingStart a t _ _ => OptOk a ∧ OptOk t
  | _ => True

/-- More directives than a stack can hold. -/
def EvCall.TooBig : EvCall → Prop
  | .documentStart _ ts _ => stackLimit (Ptr × Ptr) ts.length
  | _ => False

/-- The event holds the arguments of the call, and `bs` are exactly the blocks it owns: NUL-terminated copies of the strings, the
version directive, and the array of the tag directives. -/
def EvHolds : EvCall → HEvent → Blocks → Prop
  | .streamStart e, ev, bs => ev = .streamStart e ∧ bs = []
  | .streamEnd, ev, bs => ev = .streamEnd ∧ bs = []
  | .documentStart v ts i, ev, bs => ∃ p s b1 b2, ev = .documentStart p s i ∧ VersionAt v p b1 ∧ TagsAt (ts.map dirBytes) s b2 ∧ bs = b1 ++ b2
  | .documentEnd i, ev, bs => ev = .documentEnd i ∧ bs = []
  | .alias a, ev, bs => ∃ p, ev = .alias p ∧ StrAt (some (cbytes a)) p bs
  | .scalar a t v n pl q st, ev, bs => ∃ p1 p2 p3 b1 b2 b3, ev = .scalar p1 p2 p3 (valueBytes v n).length pl q st ∧ StrAt (a.map cbytes) p1 b1 ∧
      StrAt (t.map cbytes) p2 b2 ∧ StrAt (some (valueBytes v n)) p3 b3 ∧ bs = b1 ++ (b2 ++ b3)
  | .sequenceStart a t i st, ev, bs => ∃ p1 p2 b1 b2, ev = .sequenceStart p1 p2 i st ∧ StrAt (a.map cbytes) p1 b1 ∧ StrAt (t.map cbytes) p2 b2 ∧
      bs = b1 ++ b2
  | .sequenceEnd, ev, bs => ev = .sequenceEnd ∧ bs = []
  | .mappingStart a t i st, ev, bs => ∃ p1 p2 b1 b2, ev = .mappingStart p1 p2 i st ∧ StrAt (a.map cbytes) p1 b1 ∧ StrAt (t.map cbytes) p2 b2 ∧
      bs = b1 ++ b2
  | .mappingEnd, ev, bs => ev = .mappingEnd ∧ bs = []

section
variable {A : Prop} {base : Nat → Option Obj} {bs : Blocks} {h : Heap}

theorem hw_collInit {make : Ptr → Ptr → HEvent} {a t : Option (List UInt8)} {Q : Option HEvent → Heap → Prop} (e : Ext A base bs h)
    (hd : OptDef a ∧ OptDef t) (h0 : ∀ h', Ext A base bs h' → (A → ¬ (OptOk a ∧ OptOk t)) → Q none h')
    (h1 : ∀ h' p1 p2 b1 b2, OptOk a ∧ OptOk t → StrAt (a.map cbytes) p1 b1 → StrAt (t.map cbytes) p2 b2 → Ext A base ((b1 ++ b2) ++ bs) h' →
      Q (some (make p1 p2)) h') : hw (collInit make a t) Q h := by
  unfold collInit
  rw [hw_bind]
  refine hw_copyOptional e hd.1 (fun g1 e1 ha => ?_) (fun g1 p1 b1 o1 s1 e1 => ?_)
  · exact h0 g1 e1 (fun a hx => ha a hx.1)
  · simp only [Bool.not_true, Bool.false_eq_true, if_false]
    rw [hw_bind]
    refine hw_copyOptional e1 hd.2 (fun g2 e2 ha => ?_) (fun g2 p2 b2 o2 s2 e2 => ?_)
    · simp only [Bool.not_false, if_true]
      rw [hw_bind]
      refine hw_free_str e2 s1 (List.Perm.refl _) (fun g3 e3 => ?_)
      exact h0 g3 e3 (fun a hx => ha a hx.2)
    · simp only [Bool.not_true, Bool.false_eq_true, if_false]
      rw [hw_pure]
      refine h1 g2 p1 p2 b1 b2 ⟨o1, o2⟩ s1 s2 (e2.perm ?_)
      rw [List.perm_iff_count]
      intro z
      simp only [List.count_append]
      omega

theorem hw_scalarInit {a t : Option (List UInt8)} {v : List UInt8} {n : Int} {pl q : Bool} {st : ScalarStyle} {Q : Option HEvent → Heap → Prop}
    (e : Ext A base bs h) (hd : OptDef a ∧ OptDef t ∧ ValueDef v n)
    (h0 : ∀ h', Ext A base bs h' → (A → ¬ (OptOk a ∧ OptOk t ∧ checkUtf8 (valueBytes v n) = true)) → Q none h')
    (h1 : ∀ h' p1 p2 p3 b1 b2 b3, OptOk a ∧ OptOk t ∧ checkUtf8 (valueBytes v n) = true → StrAt (a.map cbytes) p1 b1 → StrAt (t.map cbytes) p2 b2 →
      StrAt (some (valueBytes v n)) p3 b3 → Ext A base ((b1 ++ (b2 ++ b3)) ++ bs) h' →
      Q (some (.scalar p1 p2 p3 (valueBytes v n).length pl q st)) h') : hw (scalarInit a t v n pl q st) Q h := by
  unfold scalarInit
  rw [hw_bind]
  refine hw_copyOptional e hd.1 (fun g1 e1 ha => ?_) (fun g1 p1 b1 o1 s1 e1 => ?_)
  · exact h0 g1 e1 (fun a hx => ha a hx.1)
  · simp only [Bool.not_true, Bool.false_eq_true, if_false]
    rw [hw_bind]
    refine hw_copyOptional e1 hd.2.1 (fun g2 e2 ha => ?_) (fun g2 p2 b2 o2 s2 e2 => ?_)
    · simp only [Bool.not_false, if_true]
      rw [hw_bind]
      refine hw_free_str e2 s1 (List.Perm.refl _) (fun g3 e3 => ?_)
      exact h0 g3 e3 (fun a hx => ha a hx.2.1)
    · simp only [Bool.not_true, Bool.false_eq_true, if_false]
      rw [hw_bind]
      refine hw_copyValue e2 hd.2.2 (fun g3 k e3 ha => ?_) (fun g3 p3 b3 o3 s3 e3 => ?_)
      · simp only [Bool.not_false, if_true]
        rw [hw_bind]
        refine hw_free_str (bs' := b2 ++ bs) e3 s1 ?_ (fun g4 e4 => ?_)
        · rw [List.perm_iff_count]
          intro z
          simp only [List.count_append]
          omega
        rw [hw_bind]
        refine hw_free_str e4 s2 (List.Perm.refl _) (fun g5 e5 => ?_)
        refine h0 g5 e5 (fun a hx => ?_)
        have := hx.2.2
        rw [ha a] at this; cases this
      · simp only [Bool.not_true, Bool.false_eq_true, if_false]
        rw [hw_pure]
        refine h1 g3 p1 p2 p3 b1 b2 b3 ⟨o1, o2, o3⟩ s1 s2 s3 (e3.perm ?_)
        rw [List.perm_iff_count]
        intro z
        simp only [List.count_append]
        omega

/-- The error exit after the directives (api.c:764-772). -/
theorem hw_dropDirs {s : HStk} {b x y : Blocks} {p q : Ptr} {o1 o2 : Option (List UInt8)} {done : List (List UInt8 × List UInt8)}
    {α : Type} {k : HM α} {Q : α → Heap → Prop}
    (hs : TagsAt done s b ∨ (∃ a n, s = ⟨some a, 0⟩ ∧ b = [(a, stkObj ([] : List (Ptr × Ptr)) n)])) (s1 : StrAt o1 p x) (s2 : StrAt o2 q y)
    (e : Ext A base (b ++ (x ++ (y ++ bs))) h) (hQ : ∀ h', Ext A base bs h' → hw k Q h') :
    hw (do freeDirs s.top s; free s.start; free p; free q; k) Q h := by
  have rest : ∀ g, Ext A base (x ++ (y ++ bs)) g → hw (do free p; free q; k) Q g := by
    intro g e
    rw [hw_bind]
    refine hw_free_str e s1 (List.Perm.refl _) (fun g2 e2 => ?_)
    rw [hw_bind]
    exact hw_free_str e2 s2 (List.Perm.refl _) hQ
  rw [hw_bind]
  rcases hs with hs | ⟨a, n, rfl, rfl⟩
  · unfold TagsAt at hs
    split at hs
    · obtain ⟨rfl, rfl⟩ := hs
      exact rest h e
    · obtain ⟨a, n, vs, b', rfl, k1, rfl⟩ := hs
      refine hw_freeDirs (ws := []) (n := n) (bs := x ++ (y ++ bs)) (by rw [List.append_nil]; exact e) k1 (fun g e1 => ?_)
      rw [hw_bind]
      exact hw_free e1 (List.Perm.refl _) rest
  · show hw (do free (some a); free p; free q; k) Q h
    rw [hw_bind]
    exact hw_free e (List.Perm.refl _) rest

theorem hw_documentStartInit {v : Option Version} {ts : List (List UInt8 × List UInt8)} {i : Bool} {Q : Option HEvent → Heap → Prop}
    (e : Ext A base bs h) (hd : ∀ d ∈ ts, DirDef d)
    (h0 : ∀ h', Ext A base bs h' → (A → (¬ ∀ d ∈ ts, DirOk d) ∨ stackLimit (Ptr × Ptr) ts.length) → Q none h')
    (h1 : ∀ h' p s b1 b2, (∀ d ∈ ts, DirOk d) → VersionAt v p b1 → TagsAt (ts.map dirBytes) s b2 → Ext A base ((b1 ++ b2) ++ bs) h' →
      Q (some (.documentStart p s i)) h') : hw (documentStartInit v ts i) Q h := by
  unfold documentStartInit
  rw [hw_bind]
  refine hw_copyVersion e (fun g1 e1 ha => ?_) (fun g1 p b1 s1 e1 => ?_)
  · exact h0 g1 e1 (fun a => absurd a ha)
  · simp only [Bool.not_true, Bool.false_eq_true, if_false]
    rw [hw_bind]
    refine hw_copyTags e1 hd (fun g2 s b2 o2 t2 e2 => ?_) (fun g2 s b2 p2 q2 o1 o2 x y done t2 k1 k2 e2 hA => ?_)
    · simp only [if_true]
      rw [hw_pure]
      refine h1 g2 p s b1 b2 o2 s1 t2 (e2.perm ?_)
      rw [List.perm_iff_count]
      intro z
      simp only [List.count_append]
      omega
    · simp only [Bool.false_eq_true, if_false]
      rw [hw_bind]
      refine hw_free_version (bs' := b2 ++ (x ++ (y ++ bs))) e2 s1 ?_ (fun g3 e3 => ?_)
      · rw [List.perm_iff_count]
        intro z
        simp only [List.count_append]
        omega
      exact hw_dropDirs t2 k1 k2 e3 (fun g4 e4 => h0 g4 e4 hA)

/-- Every constructor. -/
theorem hw_call {c : EvCall} (e : Ext A base bs h) (hd : c.Defined) :
    hw c.run (fun r h' => match r with
      | none => Ext A base bs h' ∧ (A → ¬ c.Valid ∨ c.TooBig)
      | some ev => c.Valid ∧ ∃ b, EvHolds c ev b ∧ Ext A base (b ++ bs) h') h := by
  cases c with
  | streamStart x => exact ⟨trivial, [], ⟨rfl, rfl⟩, e⟩
  | streamEnd => exact ⟨trivial, [], ⟨rfl, rfl⟩, e⟩
  | documentEnd x => exact ⟨trivial, [], ⟨rfl, rfl⟩, e⟩
  | sequenceEnd => exact ⟨trivial, [], ⟨rfl, rfl⟩, e⟩
  | mappingEnd => exact ⟨trivial, [], ⟨rfl, rfl⟩, e⟩
  | documentStart v ts i =>
    refine hw_documentStartInit e hd (fun h' e' hA => ⟨e', hA⟩) ?_
    intro h' p s b1 b2 o s1 s2 e'
    exact ⟨o, b1 ++ b2, ⟨p, s, b1, b2, rfl, s1, s2, rfl⟩, e'⟩
  | alias a =>
    show hw (aliasInit a) _ h
    unfold aliasInit
    rw [hw_bind]
    refine hw_copyString e hd (fun h' e' hA => ?_) (fun h' p b o s e' => ?_)
    · refine ⟨e', fun a => .inl fun hx => ?_⟩
      have hx : checkUtf8 _ = true := hx
      rw [hA a] at hx; cases hx
    · exact ⟨o, b, ⟨p, rfl, s⟩, e'⟩
  | scalar a t v n pl q st =>
    refine hw_scalarInit e hd (fun h' e' hA => ⟨e', fun a => .inl (hA a)⟩) ?_
    intro h' p1 p2 p3 b1 b2 b3 o s1 s2 s3 e'
    exact ⟨o, _, ⟨p1, p2, p3, b1, b2, b3, rfl, s1, s2, s3, rfl⟩, e'⟩
  | sequenceStart a t i st =>
    show hw (collInit (fun a t => .sequenceStart a t i st) a t) _ h
    refine hw_collInit e hd (fun h' e' hA => ⟨e', fun a => .inl (hA a)⟩) ?_
    intro h' p1 p2 b1 b2 o s1 s2 e'
    exact ⟨o, _, ⟨p1, p2, b1, b2, rfl, s1, s2, rfl⟩, e'⟩
  | mappingStart a t i st =>
    show hw (collInit (fun a t => .mappingStart a t i st) a t) _ h
    refine hw_collInit e hd (fun h' e' hA => ⟨e', fun a => .inl (hA a)⟩) ?_
    intro h' p1 p2 b1 b2 o s1 s2 e'
    exact ⟨o, _, ⟨p1, p2, b1, b2, rfl, s1, s2, rfl⟩, e'⟩

/-- `yaml_event_delete` frees exactly the blocks of the event. -/
theorem hw_eventDelete {c : EvCall} {ev : HEvent} {b : Blocks} {Q : Unit → Heap → Prop} (e : Ext A base (b ++ bs) h) (hh : EvHolds c ev b)
    (hQ : ∀ h', Ext A base bs h' → Q () h') : hw (eventDelete ev) Q h := by
  cases c with
  | streamStart x => obtain ⟨rfl, rfl⟩ := hh; exact hQ h e
  | streamEnd => obtain ⟨rfl, rfl⟩ := hh; exact hQ h e
  | documentEnd x => obtain ⟨rfl, rfl⟩ := hh; exact hQ h e
  | sequenceEnd => obtain ⟨rfl, rfl⟩ := hh; exact hQ h e
  | mappingEnd => obtain ⟨rfl, rfl⟩ := hh; exact hQ h e
  | documentStart v ts i =>
    obtain ⟨p, s, b1, b2, rfl, k1, k2, rfl⟩ := hh
    unfold eventDelete
    rw [hw_bind]
    refine hw_free_version (bs' := b2 ++ bs) e k1 (by rw [List.append_assoc]) (fun g e1 => ?_)
    exact hw_freeTags e1 k2 (List.Perm.refl _) hQ
  | alias a =>
    obtain ⟨p, rfl, k⟩ := hh
    exact hw_free_str e k (List.Perm.refl _) hQ
  | scalar a t v n pl q st =>
    obtain ⟨p1, p2, p3, b1, b2, b3, rfl, k1, k2, k3, rfl⟩ := hh
    unfold eventDelete
    rw [hw_bind]
    refine hw_free_str (bs' := b2 ++ (b3 ++ bs)) e k1 (by simp only [List.append_assoc]; exact List.Perm.refl _) (fun g e1 => ?_)
    rw [hw_bind]
    refine hw_free_str e1 k2 (List.Perm.refl _) (fun g e2 => ?_)
    exact hw_free_str e2 k3 (List.Perm.refl _) hQ
  | sequenceStart a t i st =>
    obtain ⟨p1, p2, b1, b2, rfl, k1, k2, rfl⟩ := hh
    unfold eventDelete
    rw [hw_bind]
    refine hw_free_str (bs' := b2 ++ bs) e k1 (by rw [List.append_assoc]) (fun g e1 => ?_)
    exact hw_free_str e1 k2 (List.Perm.refl _) hQ
  | mappingStart a t i st =>
    obtain ⟨p1, p2, b1, b2, rfl, k1, k2, rfl⟩ := hh
    unfold eventDelete
    rw [hw_bind]
    refine hw_free_str (bs' := b2 ++ bs) e k1 (by rw [List.append_assoc]) (fun g e1 => ?_)
    exact hw_free_str e1 k2 (List.Perm.refl _) hQ

end

end LibYaml
