import Verif.Proofs.Heap

/-!
# Version and tag directives in the heap
-/

namespace LibYaml

/-- Directives, the pointers to their strings, and the blocks of the strings. -/
def DirsAt : List (List UInt8 × List UInt8) → List (Ptr × Ptr) → Blocks → Prop
  | [], vs, bs => vs = [] ∧ bs = []
  | d :: ds, vs, bs => ∃ p q vs' x y rest, vs = (p, q) :: vs' ∧ StrAt (some d.1) p x ∧ StrAt (some d.2) q y ∧ DirsAt ds vs' rest ∧
    bs = x ++ (y ++ rest)

/-- A directive list of an event or a document: `NULL` if it is empty. -/
def TagsAt (ds : List (List UInt8 × List UInt8)) (s : HStk) (bs : Blocks) : Prop :=
  if ds = [] then s = {} ∧ bs = [] else ∃ a n vs b, s = ⟨some a, vs.length⟩ ∧ DirsAt ds vs b ∧ bs = (a, stkObj vs n) :: b

/-- The bytes of a directive argument. -/
def dirBytes (d : List UInt8 × List UInt8) : List UInt8 × List UInt8 := (cbytes d.1, cbytes d.2)

/-- The strings of a directive are valid. -/
def DirOk (d : List UInt8 × List UInt8) : Prop := checkUtf8 (cbytes d.1) = true ∧ checkUtf8 (cbytes d.2) = true

/-- The arguments are C strings. -/
def DirDef (d : List UInt8 × List UInt8) : Prop := 0 ∈ d.1 ∧ 0 ∈ d.2

theorem dirsAt_length {ds : List (List UInt8 × List UInt8)} {vs : List (Ptr × Ptr)} {b : Blocks} (h : DirsAt ds vs b) : vs.length = ds.length := by
  induction ds generalizing vs b with
  | nil => rw [h.1]; rfl
  | cons d ds ih =>
    obtain ⟨p, q, vs', x, y, rest, rfl, _, _, h, _⟩ := h
    simp [ih h]

/-- Another directive. -/
theorem dirsAt_push {ds : List (List UInt8 × List UInt8)} {vs : List (Ptr × Ptr)} {b x y : Blocks} {d : List UInt8 × List UInt8} {p q : Ptr}
    (h : DirsAt ds vs b) (hp : StrAt (some d.1) p x) (hq : StrAt (some d.2) q y) :
    ∃ b', DirsAt (ds ++ [d]) (vs ++ [(p, q)]) b' ∧ b'.Perm (x ++ (y ++ b)) := by
  induction ds generalizing vs b with
  | nil =>
    obtain ⟨rfl, rfl⟩ := h
    exact ⟨x ++ (y ++ []), ⟨p, q, [], x, y, [], rfl, hp, hq, ⟨rfl, rfl⟩, rfl⟩, List.Perm.refl _⟩
  | cons e ds ih =>
    obtain ⟨p1, q1, vs', x1, y1, rest, rfl, k1, k2, k3, rfl⟩ := h
    obtain ⟨b', j1, j2⟩ := ih k3
    refine ⟨x1 ++ (y1 ++ b'), ⟨p1, q1, vs' ++ [(p, q)], x1, y1, b', rfl, k1, k2, j1, rfl⟩, ?_⟩
    rw [List.perm_iff_count] at j2 ⊢
    intro z
    have := j2 z
    simp only [List.count_append] at this ⊢
    omega

/-- The last directive. -/
theorem dirsAt_pop {ds : List (List UInt8 × List UInt8)} {vs : List (Ptr × Ptr)} {v : Ptr × Ptr} {b : Blocks} (h : DirsAt ds (vs ++ [v]) b) :
    ∃ ds' d x y b', DirsAt ds' vs b' ∧ StrAt (some d) v.1 x ∧ (∃ d', StrAt (some d') v.2 y) ∧ b.Perm (x ++ (y ++ b')) := by
  induction ds generalizing vs b with
  | nil => exact absurd h.1 (by simp)
  | cons e ds ih =>
    obtain ⟨p1, q1, vs', x1, y1, rest, hv, k1, k2, k3, rfl⟩ := h
    cases vs with
    | nil =>
      simp only [List.nil_append, List.cons.injEq] at hv
      obtain ⟨rfl, rfl⟩ := hv
      refine ⟨[], _, x1, y1, rest, ?_, k1, ⟨_, k2⟩, List.Perm.refl _⟩
      cases ds with
      | nil => exact ⟨rfl, k3.2⟩
      | cons d ds =>
        obtain ⟨_, _, _, _, _, _, hx, _⟩ := k3
        cases hx
    | cons u vs =>
      simp only [List.cons_append, List.cons.injEq] at hv
      obtain ⟨hu, rfl⟩ := hv
      obtain ⟨ds', d, x, y, b', j1, j2, j3, j4⟩ := ih k3
      refine ⟨e :: ds', d, x, y, x1 ++ (y1 ++ b'), ⟨p1, q1, vs, x1, y1, b', by rw [hu], k1, k2, j1, rfl⟩, j2, j3, ?_⟩
      rw [List.perm_iff_count] at j4 ⊢
      intro z
      have := j4 z
      simp only [List.count_append] at this ⊢
      omega

section
variable {A : Prop} {base : Nat → Option Obj} {bs : Blocks} {h : Heap}

theorem hw_copyDirs {ds done : List (List UInt8 × List UInt8)} {a n : Nat} {vs : List (Ptr × Ptr)} {b : Blocks}
    {Q : Bool × HStk × Ptr × Ptr → Heap → Prop} (e : Ext A base ((a, stkObj vs n) :: (b ++ bs)) h) (hd : DirsAt done vs b) (hz : ∀ d ∈ ds, DirDef d)
    (hv : vs ≠ [] ∨ n ≠ 0)
    (h1 : ∀ h' a' n' vs' b', (∀ d ∈ ds, DirOk d) → DirsAt (done ++ ds.map dirBytes) vs' b' → Ext A base ((a', stkObj vs' n') :: (b' ++ bs)) h' →
      Q (true, ⟨some a', vs'.length⟩, none, none) h')
    (h0 : ∀ h' a' n' vs' b' p q o1 o2 x y done', DirsAt done' vs' b' → StrAt o1 p x → StrAt o2 q y →
      Ext A base ((a', stkObj vs' n') :: (x ++ (y ++ (b' ++ bs)))) h' →
      (A → (¬ ∀ d ∈ ds, DirOk d) ∨ stackLimit (Ptr × Ptr) (done.length + ds.length)) → Q (false, ⟨some a', vs'.length⟩, p, q) h') :
    hw (copyDirs ds ⟨some a, vs.length⟩) Q h := by
  induction ds generalizing done a n vs b h with
  | nil =>
    unfold copyDirs
    rw [hw_pure]
    exact h1 h a n vs b (fun d hd => by cases hd) (by simpa using hd) e
  | cons d ds ih =>
    obtain ⟨hdl, pfx⟩ := d
    obtain ⟨z1, z2⟩ := hz (hdl, pfx) List.mem_cons_self
    have hlen := dirsAt_length hd
    have stop : ∀ h' p q o1 o2 x y, StrAt o1 p x → StrAt o2 q y → Ext A base ((a, stkObj vs n) :: (x ++ (y ++ (b ++ bs)))) h' →
        (A → (¬ ∀ d ∈ (hdl, pfx) :: ds, DirOk d) ∨ stackLimit (Ptr × Ptr) (done.length + ((hdl, pfx) :: ds).length)) →
        Q (false, ⟨some a, vs.length⟩, p, q) h' :=
      fun h' p q o1 o2 x y s1 s2 e' hA => h0 h' a n vs b p q o1 o2 x y done hd s1 s2 e' hA
    unfold copyDirs
    rw [hw_bind]
    refine hw_strlen z1 ?_
    rw [hw_bind]
    refine hw_bytesOf (cbytes_take hdl).1 ?_
    rw [(cbytes_take hdl).2, hw_ite]
    cases hc1 : checkUtf8 (cbytes hdl) with
    | false =>
      rw [if_pos (by decide), hw_pure]
      refine stop h none none none none [] [] ⟨rfl, rfl⟩ ⟨rfl, rfl⟩ e (fun _ => .inl fun hx => ?_)
      have := (hx (hdl, pfx) List.mem_cons_self).1
      rw [hc1] at this; cases this
    | true =>
      rw [if_neg (by decide), hw_bind]
      refine hw_strlen z2 ?_
      rw [hw_bind]
      refine hw_bytesOf (cbytes_take pfx).1 ?_
      rw [(cbytes_take pfx).2, hw_ite]
      cases hc2 : checkUtf8 (cbytes pfx) with
      | false =>
        rw [if_pos (by decide), hw_pure]
        refine stop h none none none none [] [] ⟨rfl, rfl⟩ ⟨rfl, rfl⟩ e (fun _ => .inl fun hx => ?_)
        have := (hx (hdl, pfx) List.mem_cons_self).2
        rw [hc2] at this; cases this
      | true =>
        rw [if_neg (by decide), hw_bind]
        -- the two strings
        have two : ∀ h1 p x o1, StrAt o1 p x → Ext A base (x ++ ((a, stkObj vs n) :: (b ++ bs))) h1 → (p = none → ¬ A) → (p ≠ none → o1 = some (cbytes hdl)) →
            hw (do
              let q ← malloc (.bytes (cbytes pfx ++ [0]))
              if p.isNone || q.isNone then return (false, ⟨some a, vs.length⟩, p, q)
              else do
                let (ok, s) ← hPush (p, q) (⟨some a, vs.length⟩ : HStk)
                if !ok then return (false, s, p, q) else copyDirs ds s) Q h1 := by
          intro g1 p x o1 s1 e1 hn ho
          rw [hw_bind]
          refine hw_malloc e1 (fun g2 e2 ha => ?_) (fun g2 q e2 => ?_)
          · rw [hw_ite, if_pos (by simp), hw_pure]
            refine stop g2 p none o1 none x [] s1 ⟨rfl, rfl⟩ (e2.perm ?_) (fun a => absurd a ha)
            rw [List.perm_iff_count]
            intro z
            simp only [List.count_append, List.count_cons, List.count_nil]
            omega
          · rw [hw_ite]
            cases hp : p with
            | none =>
              rw [if_pos (by simp), hw_pure]
              rw [hp] at s1
              refine stop g2 none (some q) o1 (some (cbytes pfx)) x _ s1 ⟨q, [], rfl, rfl⟩ (e2.perm ?_) (fun a => absurd a (hn hp))
              rw [List.perm_iff_count]
              intro z
              simp only [List.count_append, List.count_cons, List.count_nil]
              omega
            | some p' =>
              have ho := ho (by rw [hp]; simp)
              subst ho
              rw [hp] at s1
              rw [if_neg (by simp), hw_bind]
              have hperm : ((q, Obj.bytes (cbytes pfx ++ [0])) :: (x ++ (a, stkObj vs n) :: (b ++ bs))).Perm
                  ((a, stkObj vs n) :: (x ++ ([(q, Obj.bytes (cbytes pfx ++ [0]))] ++ (b ++ bs)))) := by
                rw [List.perm_iff_count]
                intro z
                simp only [List.count_append, List.count_cons, List.count_nil]
                omega
              refine hw_push e2 hperm (fun g3 e3 hA => ?_) (fun g3 a' n' e3 => ?_) hv
              · simp only [Bool.not_false, if_true]
                rw [hw_pure]
                refine stop g3 _ _ _ (some (cbytes pfx)) x [(q, Obj.bytes (cbytes pfx ++ [0]))] s1 ⟨q, [], rfl, rfl⟩ (e3.perm hperm) (fun a => .inr ?_)
                have := hA a
                unfold stackLimit at this ⊢
                rw [hlen] at this
                refine Nat.le_trans this ?_
                exact Nat.mul_le_mul_right _ (Nat.le_add_right _ _)
              · simp only [Bool.not_true, Bool.false_eq_true, if_false]
                obtain ⟨b', j1, j2⟩ := dirsAt_push (d := (cbytes hdl, cbytes pfx)) hd s1 (⟨q, [], rfl, rfl⟩ : StrAt (some (cbytes pfx)) (some q) _)
                have hl2 : vs.length + 1 = (vs ++ [(some p', some q)]).length := by simp
                rw [hl2]
                refine ih (n := n') (done := done ++ [(cbytes hdl, cbytes pfx)]) (e3.perm ?_) j1 (fun d hd => hz d (List.mem_cons_of_mem _ hd)) (.inl (by simp)) ?_ ?_
                · rw [List.perm_iff_count] at j2 ⊢
                  intro z
                  have := j2 z
                  simp only [List.count_append, List.count_cons, List.count_nil] at this ⊢
                  omega
                · intro h' a2 n2 vs2 b2 k1 k2 k3
                  refine h1 h' a2 n2 vs2 b2 ?_ ?_ k3
                  · intro d hd
                    rcases List.mem_cons.mp hd with rfl | hd
                    · exact ⟨hc1, hc2⟩
                    · exact k1 d hd
                  · simpa [dirBytes] using k2
                · intro h' a2 n2 vs2 b2 p2 q2 o1 o2 x2 y2 d2 k1 k2 k3 k4 k5
                  refine h0 h' a2 n2 vs2 b2 p2 q2 o1 o2 x2 y2 d2 k1 k2 k3 k4 (fun a => ?_)
                  rcases k5 a with k | k
                  · exact .inl fun hx => k fun d hd => hx d (List.mem_cons_of_mem _ hd)
                  · right
                    have : done.length + ((hdl, pfx) :: ds).length = (done ++ [(cbytes hdl, cbytes pfx)]).length + ds.length := by simp; omega
                    rw [this]; exact k
        refine hw_malloc e (fun g1 e1 ha => ?_) (fun g1 p e1 => ?_)
        · exact two g1 none [] none ⟨rfl, rfl⟩ e1 (fun _ => ha) (fun h => absurd rfl h)
        · exact two g1 (some p) [(p, Obj.bytes (cbytes hdl ++ [0]))] (some (cbytes hdl)) ⟨p, [], rfl, rfl⟩ e1 (fun h => by cases h) (fun _ => rfl)

theorem hw_copyTags {ds : List (List UInt8 × List UInt8)} {Q : Bool × HStk × Ptr × Ptr → Heap → Prop} (e : Ext A base bs h) (hz : ∀ d ∈ ds, DirDef d)
    (h1 : ∀ h' s b, (∀ d ∈ ds, DirOk d) → TagsAt (ds.map dirBytes) s b → Ext A base (b ++ bs) h' → Q (true, s, none, none) h')
    (h0 : ∀ h' s b p q o1 o2 x y done, TagsAt done s b ∨ (∃ a n, s = ⟨some a, 0⟩ ∧ b = [(a, stkObj ([] : List (Ptr × Ptr)) n)]) → StrAt o1 p x → StrAt o2 q y →
      Ext A base (b ++ (x ++ (y ++ bs))) h' →
      (A → (¬ ∀ d ∈ ds, DirOk d) ∨ stackLimit (Ptr × Ptr) ds.length) → Q (false, s, p, q) h') :
    hw (copyTags ds) Q h := by
  unfold copyTags
  rw [hw_ite]
  cases ds with
  | nil =>
    rw [if_pos (by rfl), hw_pure]
    exact h1 h {} [] (fun d hd => by cases hd) (by unfold TagsAt; rw [if_pos (by rfl)]; exact ⟨rfl, rfl⟩) e
  | cons d ds =>
    rw [if_neg (by simp), hw_bind]
    refine hw_init e (fun h' e' ha => ?_) (fun h' a e' => ?_)
    · simp only [Bool.not_false, if_true]
      rw [hw_pure]
      exact h0 h' {} [] none none none none [] [] [] (.inl (by unfold TagsAt; rw [if_pos rfl]; exact ⟨rfl, rfl⟩)) ⟨rfl, rfl⟩ ⟨rfl, rfl⟩ e'
        (fun a => absurd a ha)
    · simp only [Bool.not_true, Bool.false_eq_true, if_false]
      refine hw_copyDirs (done := []) (vs := []) (b := []) e' ⟨rfl, rfl⟩ hz (.inr (by decide)) ?_ ?_
      · intro h2 a' n' vs' b' k1 k2 k3
        refine h1 h2 _ ((a', stkObj vs' n') :: b') k1 ?_ k3
        unfold TagsAt
        rw [if_neg (by simp)]
        exact ⟨a', n', vs', b', rfl, by simpa using k2, rfl⟩
      · intro h2 a' n' vs' b' p q o1 o2 x y done' k1 k2 k3 k4 k5
        refine h0 h2 _ ((a', stkObj vs' n') :: b') p q o1 o2 x y done' ?_ k2 k3 (k4.perm ?_) (by simpa using k5)
        · cases done' with
          | nil =>
            obtain ⟨rfl, rfl⟩ := k1
            exact .inr ⟨a', n', rfl, rfl⟩
          | cons d2 done' =>
            left
            unfold TagsAt
            rw [if_neg (by simp)]
            exact ⟨a', n', vs', b', rfl, k1, rfl⟩
        · rw [List.perm_iff_count]
          intro z
          simp only [List.count_append, List.count_cons]
          omega

theorem hw_freeDirs {vs ws : List (Ptr × Ptr)} {a n t : Nat} {ds : List (List UInt8 × List UInt8)} {b : Blocks} {Q : Unit → Heap → Prop}
    (e : Ext A base ((a, stkObj (vs ++ ws) n) :: (b ++ bs)) h) (hd : DirsAt ds vs b)
    (hQ : ∀ h', Ext A base ((a, stkObj (vs ++ ws) n) :: bs) h' → Q () h') : hw (freeDirs vs.length ⟨some a, t⟩) Q h := by
  generalize hk : vs.length = k
  induction k generalizing vs ws ds b h with
  | zero =>
    have : vs = [] := List.length_eq_zero_iff.mp hk
    subst this
    have hl := dirsAt_length hd
    cases ds with
    | nil =>
      obtain ⟨_, rfl⟩ := hd
      exact hQ h e
    | cons d ds => cases hl
  | succ k ih =>
    obtain ⟨vs', v, rfl⟩ : ∃ vs' v, vs = vs' ++ [v] := by
      have hne : vs ≠ [] := by rintro rfl; cases hk
      exact ⟨vs.dropLast, vs.getLast hne, (List.dropLast_concat_getLast hne).symm⟩
    have hk : vs'.length = k := by simpa using hk
    obtain ⟨ds', d, x, y, b', j1, j2, ⟨d', j3⟩, j4⟩ := dirsAt_pop hd
    unfold freeDirs
    rw [hw_bind]
    refine hw_get (v := v) e List.mem_cons_self (by rw [← hk]; simp) ?_
    rw [hw_bind]
    refine hw_free_str (bs' := y ++ ((a, stkObj (vs' ++ [v] ++ ws) n) :: (b' ++ bs))) e j2 ?_ (fun h1 e1 => ?_)
    · rw [List.perm_iff_count] at j4 ⊢
      intro z
      have := j4 z
      simp only [List.count_append, List.count_cons] at this ⊢
      omega
    rw [hw_bind]
    refine hw_free_str (bs' := ((a, stkObj (vs' ++ [v] ++ ws) n) :: (b' ++ bs))) e1 j3 (List.Perm.refl _) (fun h2 e2 => ?_)
    rw [List.append_assoc] at e2
    refine ih (ws := [v] ++ ws) e2 j1 ?_ hk
    intro h' e'
    refine hQ h' ?_
    rw [List.append_assoc]; exact e'

theorem hw_freeDirsFrom {vs ws : List (Ptr × Ptr)} {a n t k i : Nat} {ds : List (List UInt8 × List UInt8)} {b : Blocks} {Q : Unit → Heap → Prop}
    (e : Ext A base ((a, stkObj (ws ++ vs) n) :: (b ++ bs)) h) (hd : DirsAt ds vs b) (hk : k = vs.length) (hi : i = ws.length)
    (hQ : ∀ h', Ext A base ((a, stkObj (ws ++ vs) n) :: bs) h' → Q () h') : hw (freeDirsFrom k i ⟨some a, t⟩) Q h := by
  induction ds generalizing vs ws k i b h with
  | nil =>
    obtain ⟨rfl, rfl⟩ := hd
    subst hk
    exact hQ h e
  | cons d ds ih =>
    obtain ⟨p, q, vs', x, y, rest, rfl, j1, j2, j3, rfl⟩ := hd
    rw [List.length_cons] at hk
    subst hk
    unfold freeDirsFrom
    rw [hw_bind]
    refine hw_get (v := (p, q)) e List.mem_cons_self (by rw [hi]; simp) ?_
    rw [hw_bind]
    refine hw_free_str (bs' := y ++ ((a, stkObj (ws ++ (p, q) :: vs') n) :: (rest ++ bs))) e j1 ?_ (fun h1 e1 => ?_)
    · rw [List.perm_iff_count]
      intro z
      simp only [List.count_append, List.count_cons]
      omega
    rw [hw_bind]
    refine hw_free_str (bs' := ((a, stkObj (ws ++ (p, q) :: vs') n) :: (rest ++ bs))) e1 j2 (List.Perm.refl _) (fun h2 e2 => ?_)
    have ea : ws ++ (p, q) :: vs' = (ws ++ [(p, q)]) ++ vs' := by simp
    rw [ea] at e2
    refine ih e2 j3 rfl (by rw [hi]; simp) ?_
    intro h' e'
    refine hQ h' ?_
    rw [ea]; exact e'

/-- The directives of an event or a document are freed. -/
theorem hw_freeTags {s : HStk} {ds : List (List UInt8 × List UInt8)} {b bs' : Blocks} {Q : Unit → Heap → Prop}
    (e : Ext A base bs' h) (hd : TagsAt ds s b) (hp : bs'.Perm (b ++ bs)) (hQ : ∀ h', Ext A base bs h' → Q () h') :
    hw (do freeDirsFrom s.top 0 s; free s.start) Q h := by
  have e := e.perm hp
  rw [hw_bind]
  unfold TagsAt at hd
  split at hd
  · obtain ⟨rfl, rfl⟩ := hd
    exact hQ h e
  · obtain ⟨a, n, vs, b', rfl, k1, rfl⟩ := hd
    refine hw_freeDirsFrom (ws := []) e k1 rfl rfl (fun h' e' => ?_)
    exact hw_free e' (List.Perm.refl _) hQ

/-- A version directive, its pointer and its block. -/
def VersionAt : Option Version → Ptr → Blocks → Prop
  | none, p, bs => p = none ∧ bs = []
  | some v, p, bs => ∃ a, p = some a ∧ bs = [(a, .version v)]

theorem hw_copyVersion {v : Option Version} {Q : Bool × Ptr → Heap → Prop} (e : Ext A base bs h)
    (h0 : ∀ h', Ext A base bs h' → ¬ A → Q (false, none) h')
    (h1 : ∀ h' p b, VersionAt v p b → Ext A base (b ++ bs) h' → Q (true, p) h') : hw (copyVersion v) Q h := by
  cases v with
  | none => exact h1 h none [] ⟨rfl, rfl⟩ e
  | some v =>
    unfold copyVersion
    rw [hw_bind]
    exact hw_malloc e (fun h' e' ha => h0 h' e' ha) (fun h' p e' => h1 h' (some p) _ ⟨p, rfl, rfl⟩ e')

theorem hw_free_version {v : Option Version} {p : Ptr} {b bs' : Blocks} {Q : Unit → Heap → Prop} (e : Ext A base bs h) (hs : VersionAt v p b)
    (hp : bs.Perm (b ++ bs')) (hQ : ∀ h', Ext A base bs' h' → Q () h') : hw (free p) Q h := by
  cases v with
  | none =>
    obtain ⟨rfl, rfl⟩ := hs
    exact hw_free_null (hQ h (e.perm hp))
  | some v =>
    obtain ⟨a, rfl, rfl⟩ := hs
    exact hw_free e hp hQ

end

end LibYaml
