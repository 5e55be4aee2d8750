import Verif.Model.DocumentHeap
import Verif.Proofs.Octets
import Verif.Proofs.EventApi
import Verif.Props.Document

/-!
# The document API on the heap refines the document API on values
-/

namespace LibYaml

open Spec

theorem apiText_bytes {b : List UInt8} {t : Text} (h : apiText b = some t) : b = textBytes t := by
  obtain ⟨h1, h2⟩ := (apiText_iff b t).mp h
  rw [h1, textBytes_utf8s h2]

/-- A node of the model, the node in the heap, and the blocks it owns. -/
def NodeAt (nd : Node) (hn : HNode) (bs : Blocks) : Prop :=
  match nd.data with
  | .scalar v st => ∃ p q x y, hn = .scalar p q (textBytes v).length st ∧ StrAt (some (textBytes nd.tag)) p x ∧ StrAt (some (textBytes v)) q y ∧ bs = x ++ y
  | .sequence items st => ∃ p a n x, hn = .sequence p ⟨some a, items.length⟩ st ∧ StrAt (some (textBytes nd.tag)) p x ∧ (items ≠ [] ∨ n ≠ 0) ∧
      bs = x ++ [(a, stkObj (items.map Int.ofNat) n)]
  | .mapping pairs st => ∃ p a n x, hn = .mapping p ⟨some a, pairs.length⟩ st ∧ StrAt (some (textBytes nd.tag)) p x ∧ (pairs ≠ [] ∨ n ≠ 0) ∧
      bs = x ++ [(a, stkObj (pairs.map fun x => (Int.ofNat x.1, Int.ofNat x.2)) n)]

def NodesAt : List Node → List HNode → Blocks → Prop
  | [], hns, bs => hns = [] ∧ bs = []
  | nd :: nds, hns, bs => ∃ hn hns' x rest, hns = hn :: hns' ∧ NodeAt nd hn x ∧ NodesAt nds hns' rest ∧ bs = x ++ rest

/-- The texts of a tag directive. -/
def dirText (t : TagDir) : List UInt8 × List UInt8 := (textBytes t.handle, textBytes t.pfx)

/-- A document of the model, the document in the heap, and the blocks it owns. -/
def DocAt (d : Doc) (hd : HDoc) (bs : Blocks) : Prop :=
  ∃ a n hns b1 b2 b3, hd.nodes = ⟨some a, hns.length⟩ ∧ NodesAt d.nodes hns b1 ∧ VersionAt d.version hd.version b2 ∧
    TagsAt (d.tags.map dirText) hd.tags b3 ∧ hd.startImplicit = d.startImplicit ∧ hd.endImplicit = d.endImplicit ∧ (hns ≠ [] ∨ n ≠ 0) ∧
    bs = (a, stkObj hns n) :: (b1 ++ (b2 ++ b3))

theorem nodesAt_length {nds : List Node} {hns : List HNode} {b : Blocks} (h : NodesAt nds hns b) : hns.length = nds.length := by
  induction nds generalizing hns b with
  | nil => rw [h.1]; rfl
  | cons nd nds ih =>
    obtain ⟨hn, hns', x, rest, rfl, _, h, _⟩ := h
    simp [ih h]

theorem nodesAt_append {l1 l2 : List Node} {h1 h2 : List HNode} {b1 b2 : Blocks} (k1 : NodesAt l1 h1 b1) (k2 : NodesAt l2 h2 b2) :
    NodesAt (l1 ++ l2) (h1 ++ h2) (b1 ++ b2) := by
  induction l1 generalizing h1 b1 with
  | nil => obtain ⟨rfl, rfl⟩ := k1; exact k2
  | cons nd nds ih =>
    obtain ⟨hn, hns', x, rest, rfl, j1, j2, rfl⟩ := k1
    exact ⟨hn, hns' ++ h2, x, rest ++ b2, rfl, j1, ih j2, by rw [List.append_assoc]⟩

theorem nodesAt_split {l1 l2 : List Node} {hns : List HNode} {b : Blocks} (k : NodesAt (l1 ++ l2) hns b) :
    ∃ h1 h2 b1 b2, hns = h1 ++ h2 ∧ NodesAt l1 h1 b1 ∧ NodesAt l2 h2 b2 ∧ b = b1 ++ b2 := by
  induction l1 generalizing hns b with
  | nil => exact ⟨[], hns, [], b, rfl, ⟨rfl, rfl⟩, k, rfl⟩
  | cons nd nds ih =>
    obtain ⟨hn, hns', x, rest, rfl, j1, j2, rfl⟩ := k
    obtain ⟨h1, h2, b1, b2, rfl, i1, i2, rfl⟩ := ih j2
    exact ⟨hn :: h1, h2, x ++ b1, b2, rfl, ⟨hn, h1, x, b1, rfl, j1, i1, rfl⟩, i2, by rw [List.append_assoc]⟩

section
variable {A : Prop} {base : Nat → Option Obj} {bs bs' : Blocks} {h : Heap}

/-- The two frees of a node. -/
theorem hw_freeNode {nd : Node} {hn : HNode} {b : Blocks} {α : Type} {k : HM α} {Q : α → Heap → Prop} (e : Ext A base bs h) (hn' : NodeAt nd hn b)
    (hp : bs.Perm (b ++ bs')) (hQ : ∀ h', Ext A base bs' h' → hw k Q h') : hw (do free hn.tag; free hn.body; k) Q h := by
  unfold NodeAt at hn'
  rw [hw_bind]
  cases hd : nd.data with
  | scalar v st =>
    rw [hd] at hn'
    obtain ⟨p, q, x, y, rfl, k1, k2, rfl⟩ := hn'
    refine hw_free_str (bs' := y ++ bs') e k1 (by rw [← List.append_assoc]; exact hp) (fun h1 e1 => ?_)
    rw [hw_bind]
    exact hw_free_str e1 k2 (List.Perm.refl _) hQ
  | sequence items st =>
    rw [hd] at hn'
    obtain ⟨p, a, n, x, rfl, k1, _, rfl⟩ := hn'
    refine hw_free_str (bs' := _ :: bs') e k1 (by rw [List.append_assoc] at hp; exact hp) (fun h1 e1 => ?_)
    rw [hw_bind]
    exact hw_free e1 (List.Perm.refl _) hQ
  | mapping pairs st =>
    rw [hd] at hn'
    obtain ⟨p, a, n, x, rfl, k1, _, rfl⟩ := hn'
    refine hw_free_str (bs' := _ :: bs') e k1 (by rw [List.append_assoc] at hp; exact hp) (fun h1 e1 => ?_)
    rw [hw_bind]
    exact hw_free e1 (List.Perm.refl _) hQ

theorem hw_freeNodes {nds : List Node} {vs ws : List HNode} {a n t : Nat} {b : Blocks} {Q : Unit → Heap → Prop}
    (e : Ext A base ((a, stkObj (vs ++ ws) n) :: (b ++ bs)) h) (hd : NodesAt nds vs b)
    (hQ : ∀ h', Ext A base ((a, stkObj (vs ++ ws) n) :: bs) h' → Q () h') : hw (freeNodes vs.length ⟨some a, t⟩) Q h := by
  generalize hk : vs.length = k
  induction k generalizing vs ws nds b h with
  | zero =>
    have : vs = [] := List.length_eq_zero_iff.mp hk
    subst this
    have hl := nodesAt_length hd
    cases nds with
    | nil =>
      obtain ⟨_, rfl⟩ := hd
      exact hQ h e
    | cons d ds => cases hl
  | succ k ih =>
    obtain ⟨nds', nd, rfl⟩ : ∃ l x, nds = l ++ [x] := by
      have hl := nodesAt_length hd
      have hne : nds ≠ [] := by rintro rfl; rw [hk] at hl; cases hl
      exact ⟨nds.dropLast, nds.getLast hne, (List.dropLast_concat_getLast hne).symm⟩
    obtain ⟨vs', h2, b1, b2, rfl, k1, k2, rfl⟩ := nodesAt_split hd
    obtain ⟨v, hns', x, rest, rfl, j1, ⟨rfl, rfl⟩, rfl⟩ := k2
    have hk : vs'.length = k := by simpa using hk
    unfold freeNodes
    rw [hw_bind]
    refine hw_get (v := v) e List.mem_cons_self (by rw [← hk]; simp) ?_
    refine hw_freeNode (bs' := (a, stkObj (vs' ++ [v] ++ ws) n) :: (b1 ++ bs)) e j1 ?_ (fun h1 e1 => ?_)
    · rw [List.perm_iff_count]
      intro z
      simp only [List.count_append, List.count_cons, List.count_nil]
      omega
    rw [List.append_assoc] at e1
    refine ih (ws := [v] ++ ws) e1 k1 ?_ hk
    intro h' e'
    refine hQ h' ?_
    rw [List.append_assoc]; exact e'

theorem hw_documentDelete {d : Doc} {hd : HDoc} {b : Blocks} {Q : Unit → Heap → Prop} (e : Ext A base (b ++ bs) h) (ha : DocAt d hd b)
    (hQ : ∀ h', Ext A base bs h' → Q () h') : hw (documentDelete hd) Q h := by
  obtain ⟨a, n, hns, b1, b2, b3, hn, k1, k2, k3, _, _, _, rfl⟩ := ha
  unfold documentDelete
  rw [hw_bind, hn]
  refine hw_freeNodes (A := A) (base := base) (ws := []) (n := n) (b := b1) (bs := b2 ++ (b3 ++ bs)) ?_ k1 (fun g e1 => ?_)
  · rw [List.append_nil]
    refine e.perm ?_
    simp only [List.cons_append, List.append_assoc]
    exact List.Perm.refl _
  rw [hw_bind]
  refine hw_free e1 (List.Perm.refl _) (fun g e2 => ?_)
  rw [hw_bind]
  refine hw_free_version e2 k2 (List.Perm.refl _) (fun g e3 => ?_)
  exact hw_freeTags e3 k3 (List.Perm.refl _) hQ

theorem hw_documentInit {v : Option Version} {ts : List (List UInt8 × List UInt8)} {i j : Bool} {Q : Option HDoc → Heap → Prop}
    (e : Ext A base bs h) (hd : ∀ d ∈ ts, DirDef d)
    (h0 : ∀ h', Ext A base bs h' → (A → (¬ ∀ d ∈ ts, DirOk d) ∨ stackLimit (Ptr × Ptr) ts.length) → Q none h')
    (h1 : ∀ h' hd b tags, (∀ d ∈ ts, DirOk d) → tags.map dirText = ts.map dirBytes →
      DocAt { version := v, tags, startImplicit := i, endImplicit := j } hd b → Ext A base (b ++ bs) h' → Q (some hd) h') :
    hw (documentInit v ts i j) Q h := by
  unfold documentInit
  rw [hw_bind]
  refine hw_init e (fun g0 e0 ha => ?_) (fun g0 a e0 => ?_)
  · exact h0 g0 e0 (fun a => absurd a ha)
  simp only [Bool.not_true, Bool.false_eq_true, if_false]
  rw [hw_bind]
  refine hw_copyVersion e0 (fun g1 e1 ha => ?_) (fun g1 p b1 s1 e1 => ?_)
  · simp only [Bool.not_false, if_true]
    rw [hw_bind]
    exact hw_free e1 (List.Perm.refl _) (fun g2 e2 => h0 g2 e2 (fun a => absurd a ha))
  · simp only [Bool.not_true, Bool.false_eq_true, if_false]
    rw [hw_bind]
    refine hw_copyTags e1 hd (fun g2 s b2 o2 t2 e2 => ?_) (fun g2 s b2 p2 q2 o1 o2 x y done t2 k1 k2 e2 hA => ?_)
    · simp only [if_true]
      rw [hw_pure]
      have hex : ∃ tags : List TagDir, tags.map dirText = ts.map dirBytes := by
        clear h0 h1 e e0 e1 e2 t2 hd
        induction ts with
        | nil => exact ⟨[], rfl⟩
        | cons d ts ih =>
          obtain ⟨tags, ht⟩ := ih (fun d hd => o2 d (List.mem_cons_of_mem _ hd))
          have key : ∀ b, checkUtf8 b = true → ∃ t, b = textBytes t := by
            intro b hb
            have := apiText_isSome b
            rw [hb] at this
            obtain ⟨t, ht⟩ := Option.isSome_iff_exists.mp this
            exact ⟨t, apiText_bytes ht⟩
          obtain ⟨w1, w2⟩ := o2 d List.mem_cons_self
          obtain ⟨t1, r1⟩ := key _ w1
          obtain ⟨t2, r2⟩ := key _ w2
          exact ⟨⟨t1, t2⟩ :: tags, by simp [ht, dirText, dirBytes, r1, r2]⟩
      obtain ⟨tags, ht⟩ := hex
      refine h1 g2 _ ((a, stkObj ([] : List HNode) 16) :: ([] ++ (b1 ++ b2))) tags o2 ht ⟨a, 16, [], [], b1, b2, rfl, ⟨rfl, rfl⟩, s1, ?_, rfl, rfl, .inr (by decide), rfl⟩
        (e2.perm ?_)
      · show TagsAt (tags.map dirText) _ _
        rw [ht]; exact t2
      · rw [List.perm_iff_count]
        intro z
        simp only [List.count_append, List.count_cons, List.count_nil]
        omega
    · simp only [Bool.false_eq_true, if_false]
      rw [hw_bind]
      refine hw_free (p := a) (o := stkObj ([] : List HNode) 16) (bs' := b1 ++ (b2 ++ (x ++ (y ++ bs)))) e2 ?_ (fun g3 e3 => ?_)
      · rw [List.perm_iff_count]
        intro z
        simp only [List.count_append, List.count_cons]
        omega
      rw [hw_bind]
      refine hw_free_version e3 s1 (List.Perm.refl _) (fun g4 e4 => ?_)
      exact hw_dropDirs t2 k1 k2 e4 (fun g5 e5 => h0 g5 e5 hA)

/-! ### Adding nodes -/

theorem hw_pushNode {d : Doc} {hd : HDoc} {b x : Blocks} {nd : Node} {hn : HNode} {Q : Bool × HStk → Heap → Prop} (ha : DocAt d hd b) (hx : NodeAt nd hn x)
    (e : Ext A base (x ++ (b ++ bs)) h)
    (h0 : ∀ h', Ext A base (x ++ (b ++ bs)) h' → (A → stackLimit HNode d.nodes.length) → Q (false, hd.nodes) h')
    (h1 : ∀ h' nodes b', nodes.top = d.nodes.length + 1 → DocAt { d with nodes := d.nodes ++ [nd] } { hd with nodes } b' → Ext A base (b' ++ bs) h' →
      Q (true, nodes) h') : hw (hPush hn hd.nodes) Q h := by
  obtain ⟨a, n, hns, b1, b2, b3, hnodes, k1, k2, k3, k4, k5, k6, rfl⟩ := ha
  have hl := nodesAt_length k1
  rw [hnodes] at h0 ⊢
  refine hw_push (bs' := x ++ (b1 ++ (b2 ++ (b3 ++ bs)))) e ?_ (fun g e1 hA => h0 g e1 (by rw [← hl]; exact hA)) (fun g a' n' e1 => ?_) k6
  · rw [List.perm_iff_count]
    intro z
    simp only [List.count_append, List.count_cons]
    omega
  · refine h1 g _ ((a', stkObj (hns ++ [hn]) n') :: ((b1 ++ (x ++ [])) ++ (b2 ++ b3))) (by show hns.length + 1 = _; rw [hl])
      ⟨a', n', hns ++ [hn], b1 ++ (x ++ []), b2, b3, by simp, nodesAt_append k1 ⟨hn, [], x, [], rfl, hx, ⟨rfl, rfl⟩, rfl⟩, k2, k3, k4, k5, .inl (by simp), rfl⟩
      (e1.perm ?_)
    rw [List.perm_iff_count]
    intro z
    simp only [List.count_append, List.count_cons, List.count_nil]
    omega

/-- The buffer from which the tag is copied. -/
def tagBuf (dflt : Text) (tag : Option (List UInt8)) : List UInt8 :=
  match tag with | none => literal dflt | some b => b

/-- A default tag. -/
def Dflt (t : Text) : Prop := apiText (cbytes (literal t)) = some t ∧ 0 ∈ literal t

theorem apiTag_buf {dflt : Text} {tag : Option (List UInt8)} (hd : Dflt dflt) : apiTag dflt (tag.map cbytes) = apiText (cbytes (tagBuf dflt tag)) := by
  cases tag with
  | none => exact hd.1.symm
  | some b => rfl

theorem tagBuf_def {dflt : Text} {tag : Option (List UInt8)} (hd : Dflt dflt) (h : OptDef tag) : 0 ∈ tagBuf dflt tag := by
  cases tag with
  | none => exact hd.2
  | some b => exact h b rfl

theorem apiText_of_check {b : List UInt8} (h : checkUtf8 b = true) : ∃ t, apiText b = some t ∧ b = textBytes t := by
  have := apiText_isSome b
  rw [h] at this
  obtain ⟨t, ht⟩ := Option.isSome_iff_exists.mp this
  exact ⟨t, ht, apiText_bytes ht⟩

theorem apiText_of_not {b : List UInt8} (h : checkUtf8 b = false) : apiText b = none := by
  have := apiText_isSome b
  rw [h] at this
  exact Option.not_isSome_iff_eq_none.mp (by rw [this]; decide)

theorem dflt_str : Dflt strTag := by unfold Dflt; decide
theorem dflt_seq : Dflt seqTag := by unfold Dflt; decide
theorem dflt_map : Dflt mapTag := by unfold Dflt; decide

theorem hw_addScalar {d : Doc} {hd : HDoc} {b : Blocks} {tag : Option (List UInt8)} {v : List UInt8} {n : Int} {st : ScalarStyle}
    {Q : Int × HDoc → Heap → Prop} (e : Ext A base (b ++ bs) h) (ha : DocAt d hd b) (hz : OptDef tag ∧ ValueDef v n)
    (hQ : ∀ h' r hd' ok d' b', addScalar (tag.map cbytes) (valueBytes v n) st ok d = (r, d') → DocAt d' hd' b' → Ext A base (b' ++ bs) h' →
      (A → ok = true ∨ stackLimit HNode d.nodes.length) → Q (r, hd') h') : hw (hAddScalar tag v n st hd) Q h := by
  have hfree : ∀ (g : Heap) (ok : Bool) (p1 : Ptr) (x1 : Blocks) (o1 : Option (List UInt8)), StrAt o1 p1 x1 → Ext A base (x1 ++ (b ++ bs)) g →
      addScalar (tag.map cbytes) (valueBytes v n) st ok d = (0, d) → (A → ok = true ∨ stackLimit HNode d.nodes.length) →
      hw (do free p1; return (0, hd)) Q g := by
    intro g ok p1 x1 o1 s1 e1 hr hA
    rw [hw_bind]
    exact hw_free_str e1 s1 (List.Perm.refl _) (fun g2 e2 => hQ g2 0 hd ok d b hr ha e2 hA)
  have refused : addScalar (tag.map cbytes) (valueBytes v n) st false d = (0, d) := by
    unfold addScalar pushNode
    split
    · rfl
    · split <;> rfl
  have bad1 : checkUtf8 (cbytes (tagBuf strTag tag)) = false → addScalar (tag.map cbytes) (valueBytes v n) st true d = (0, d) := by
    intro hc
    unfold addScalar
    rw [apiTag_buf dflt_str, apiText_of_not hc]
  have bad2 : checkUtf8 (valueBytes v n) = false → addScalar (tag.map cbytes) (valueBytes v n) st true d = (0, d) := by
    intro hc
    unfold addScalar
    rw [apiText_of_not hc]
    split <;> rfl
  unfold hAddScalar
  show hw (α := Int × HDoc) (do
    let (ok, t) ← copyString (tagBuf strTag tag)
    if !ok then do free t; return (0, hd)
    else do
      let (ok, v, n) ← copyValue v n
      if !ok then do free t; free v; return (0, hd)
      else do
        let (ok, nodes) ← hPush (HNode.scalar t v n st) hd.nodes
        if !ok then do free t; free v; return (0, { hd with nodes })
        else return ((nodes.top : Nat), { hd with nodes })) Q h
  rw [hw_bind]
  refine hw_copyString e (tagBuf_def dflt_str hz.1) (fun g1 e1 hA => ?_) (fun g1 p1 x1 c1 s1 e1 => ?_)
  · simp only [Bool.not_false, if_true]
    cases hc : checkUtf8 (cbytes (tagBuf strTag tag)) with
    | false => exact hfree g1 true none [] none ⟨rfl, rfl⟩ e1 (bad1 hc) (fun _ => .inl rfl)
    | true => exact hfree g1 false none [] none ⟨rfl, rfl⟩ e1 refused (fun a => by rw [hA a] at hc; cases hc)
  · simp only [Bool.not_true, Bool.false_eq_true, if_false]
    rw [hw_bind]
    refine hw_copyValue e1 hz.2 (fun g2 k e2 hA => ?_) (fun g2 p2 x2 c2 s2 e2 => ?_)
    · simp only [Bool.not_false, if_true]
      cases hc : checkUtf8 (valueBytes v n) with
      | false => exact hfree g2 true p1 x1 _ s1 e2 (bad2 hc) (fun _ => .inl rfl)
      | true => exact hfree g2 false p1 x1 _ s1 e2 refused (fun a => by rw [hA a] at hc; cases hc)
    · simp only [Bool.not_true, Bool.false_eq_true, if_false]
      obtain ⟨t, ht1, ht2⟩ := apiText_of_check c1
      obtain ⟨w, hw1, hw2⟩ := apiText_of_check c2
      rw [hw_bind]
      have hnode : NodeAt { tag := t, data := .scalar w st } (.scalar p1 p2 (valueBytes v n).length st) (x1 ++ x2) := by
        refine ⟨p1, p2, x1, x2, by rw [hw2], ?_, ?_, rfl⟩
        · show StrAt (some (textBytes t)) p1 x1
          rw [← ht2]; exact s1
        · rw [← hw2]; exact s2
      refine hw_pushNode (bs := bs) (x := x1 ++ x2) ha hnode (e2.perm ?_) (fun g3 e3 hA => ?_) (fun g3 nodes b' ht hd' e3 => ?_)
      · rw [List.perm_iff_count]
        intro z
        simp only [List.count_append]
        omega
      · simp only [Bool.not_false, if_true]
        rw [hw_bind]
        refine hw_free_str (bs' := x2 ++ (b ++ bs)) e3 s1 (by rw [List.append_assoc]) (fun g4 e4 => ?_)
        exact hfree g4 false p2 x2 _ s2 e4 refused (fun a => .inr (hA a))
      · simp only [Bool.not_true, Bool.false_eq_true, if_false]
        rw [hw_pure]
        refine hQ g3 _ _ true _ b' ?_ hd' e3 (fun _ => .inl rfl)
        unfold addScalar
        rw [apiTag_buf dflt_str, ht1, hw1, ht]
        rfl

theorem hw_addColl {α : Type} [Cell α] {dflt : Text} {make : Ptr → HStk → HNode} {nd : Text → Node} {d : Doc} {hd : HDoc} {b : Blocks} {tag : Option (List UInt8)}
    {Q : Int × HDoc → Heap → Prop} (e : Ext A base (b ++ bs) h) (ha : DocAt d hd b) (hz : OptDef tag) (hdf : Dflt dflt)
    (hmake : ∀ t p a x, StrAt (some (textBytes t)) p x → NodeAt (nd t) (make p ⟨some a, 0⟩) (x ++ [(a, stkObj ([] : List α) 16)]))
    (hQ : ∀ h' r hd' ok d' b', (match apiTag dflt (tag.map cbytes) with | none => ((0 : Int), d) | some t => pushNode ok (nd t) d) = (r, d') →
      DocAt d' hd' b' → Ext A base (b' ++ bs) h' → (A → ok = true ∨ stackLimit HNode d.nodes.length) → Q (r, hd') h') :
    hw (hAddColl α dflt make tag hd) Q h := by
  have refused : (match apiTag dflt (tag.map cbytes) with | none => ((0 : Int), d) | some t => pushNode false (nd t) d) = (0, d) := by
    split <;> rfl
  have hfree : ∀ (g : Heap) (ok : Bool) (p1 : Ptr) (x1 : Blocks) (o1 : Option (List UInt8)), StrAt o1 p1 x1 → Ext A base (x1 ++ (b ++ bs)) g →
      (match apiTag dflt (tag.map cbytes) with | none => ((0 : Int), d) | some t => pushNode ok (nd t) d) = (0, d) →
      (A → ok = true ∨ stackLimit HNode d.nodes.length) → hw (do free p1; return (0, hd)) Q g := by
    intro g ok p1 x1 o1 s1 e1 hr hA
    rw [hw_bind]
    exact hw_free_str e1 s1 (List.Perm.refl _) (fun g2 e2 => hQ g2 0 hd ok d b hr ha e2 hA)
  unfold hAddColl
  show hw (α := Int × HDoc) (do
    let (ok, t) ← copyString (tagBuf dflt tag)
    if !ok then do free t; return (0, hd)
    else do
      let (ok, s) ← hInit α
      if !ok then do free s.start; free t; return (0, hd)
      else do
        let (ok, nodes) ← hPush (make t s) hd.nodes
        if !ok then do free s.start; free t; return (0, { hd with nodes })
        else return ((nodes.top : Nat), { hd with nodes })) Q h
  rw [hw_bind]
  refine hw_copyString e (tagBuf_def hdf hz) (fun g1 e1 hA => ?_) (fun g1 p1 x1 c1 s1 e1 => ?_)
  · simp only [Bool.not_false, if_true]
    cases hc : checkUtf8 (cbytes (tagBuf dflt tag)) with
    | false =>
      refine hfree g1 true none [] none ⟨rfl, rfl⟩ e1 ?_ (fun _ => .inl rfl)
      rw [apiTag_buf hdf, apiText_of_not hc]
    | true => exact hfree g1 false none [] none ⟨rfl, rfl⟩ e1 refused (fun a => by rw [hA a] at hc; cases hc)
  · simp only [Bool.not_true, Bool.false_eq_true, if_false]
    rw [hw_bind]
    refine hw_init e1 (fun g2 e2 ha' => ?_) (fun g2 a e2 => ?_)
    · simp only [Bool.not_false, if_true]
      exact hfree g2 false p1 x1 _ s1 e2 refused (fun a => absurd a ha')
    · simp only [Bool.not_true, Bool.false_eq_true, if_false]
      obtain ⟨t, ht1, ht2⟩ := apiText_of_check c1
      rw [hw_bind]
      refine hw_pushNode (bs := bs) ha (hmake t p1 a x1 (by rw [← ht2]; exact s1)) (e2.perm ?_) (fun g3 e3 hA => ?_) (fun g3 nodes b' ht hd' e3 => ?_)
      · rw [List.perm_iff_count]
        intro z
        simp only [List.count_append, List.count_cons, List.count_nil]
        omega
      · simp only [Bool.not_false, if_true]
        rw [hw_bind]
        refine hw_free (bs' := x1 ++ (b ++ bs)) (o := stkObj ([] : List α) 16) e3 ?_ (fun g4 e4 => ?_)
        · rw [List.perm_iff_count]
          intro z
          simp only [List.count_append, List.count_cons, List.count_nil]
          omega
        exact hfree g4 false p1 x1 _ s1 e4 refused (fun a => .inr (hA a))
      · simp only [Bool.not_true, Bool.false_eq_true, if_false]
        rw [hw_pure]
        refine hQ g3 _ _ true _ b' ?_ hd' e3 (fun _ => .inl rfl)
        rw [apiTag_buf hdf, ht1, ht]
        rfl

/-! ### Appending -/

theorem hw_assertH {c : Bool} {Q : Unit → Heap → Prop} (hc : c = true) (hQ : Q () h) : hw (assertH c) Q h := by
  unfold assertH hw
  rw [hc]
  exact hQ

/-- The node with the given number and its neighbours. -/
theorem docAt_node {d : Doc} {hd : HDoc} {b : Blocks} {i : Nat} {nd : Node} (ha : DocAt d hd b) (hi : d.nodes[i]? = some nd) :
    ∃ a n h1 hn h2 x rest, hd.nodes = ⟨some a, (h1 ++ hn :: h2).length⟩ ∧ i = h1.length ∧ NodeAt nd hn x ∧
      b.Perm ((a, stkObj (h1 ++ hn :: h2) n) :: (x ++ rest)) ∧
      ∀ nd' hn' x', NodeAt nd' hn' x' → ∃ b', DocAt { d with nodes := d.nodes.set i nd' } hd b' ∧
        b'.Perm ((a, stkObj (h1 ++ hn' :: h2) n) :: (x' ++ rest)) := by
  obtain ⟨a, n, hns, b1, b2, b3, hnodes, k1, k2, k3, k4, k5, k6, rfl⟩ := ha
  obtain ⟨hlt, hget⟩ := List.getElem?_eq_some_iff.mp hi
  have hsplit : d.nodes = d.nodes.take i ++ nd :: d.nodes.drop (i + 1) := by
    rw [← hget]
    exact (List.take_append_drop i d.nodes).symm.trans (by rw [List.drop_eq_getElem_cons hlt])
  rw [hsplit] at k1
  obtain ⟨h1, h2, x1, x2, rfl, j1, j2, rfl⟩ := nodesAt_split k1
  obtain ⟨hn, h3, x, rest, rfl, m1, m2, rfl⟩ := j2
  have hl := nodesAt_length j1
  have hl' : i = h1.length := by rw [hl, List.length_take]; omega
  refine ⟨a, n, h1, hn, h3, x, x1 ++ (rest ++ (b2 ++ b3)), hnodes, hl', m1, ?_, ?_⟩
  · rw [List.perm_iff_count]
    intro z
    simp only [List.count_append, List.count_cons]
    omega
  · intro nd' hn' x' hnode
    refine ⟨(a, stkObj (h1 ++ hn' :: h3) n) :: ((x1 ++ (x' ++ rest)) ++ (b2 ++ b3)), ⟨a, n, h1 ++ hn' :: h3, x1 ++ (x' ++ rest), b2, b3, ?_, ?_, k2, k3, k4, k5, .inl (by simp), rfl⟩, ?_⟩
    · rw [hnodes]; simp
    · show NodesAt (d.nodes.set i nd') _ _
      have : d.nodes.set i nd' = d.nodes.take i ++ nd' :: d.nodes.drop (i + 1) := by
        rw [List.set_eq_take_append_cons_drop, if_pos hlt]
      rw [this]
      exact nodesAt_append j1 ⟨hn', h3, x', rest, rfl, hnode, m2, rfl⟩
    · rw [List.perm_iff_count]
      intro z
      simp only [List.count_append, List.count_cons]
      omega

theorem docAt_length {d : Doc} {hd : HDoc} {b : Blocks} (ha : DocAt d hd b) : hd.nodes.top = d.nodes.length := by
  obtain ⟨a, n, hns, b1, b2, b3, hnodes, k1, _⟩ := ha
  rw [hnodes, ← nodesAt_length k1]

theorem hValidId_eq {d : Doc} {hd : HDoc} {b : Blocks} (ha : DocAt d hd b) (i : Int) : hValidId hd i = validId d i := by
  unfold hValidId validId
  rw [docAt_length ha]

/-- A node of the document is as large as it can be. -/
def Doc.Full (d : Doc) : Prop :=
  stackLimit HNode d.nodes.length ∨ ∃ nd ∈ d.nodes, match nd.data with
    | .scalar _ _ => False
    | .sequence items _ => stackLimit Int items.length
    | .mapping pairs _ => stackLimit (Int × Int) pairs.length

theorem hw_appendItem {d : Doc} {hd : HDoc} {b : Blocks} {s i : Int} {Q : Int × HDoc → Heap → Prop} (e : Ext A base (b ++ bs) h) (ha : DocAt d hd b)
    (hok : ∃ r, appendItem s i true d = .ok r)
    (hQ : ∀ h' r ok d' b', appendItem s i ok d = .ok (r, d') → DocAt d' hd b' → Ext A base (b' ++ bs) h' → (A → ok = true ∨ d.Full) → Q (r, hd) h') :
    hw (hAppendItem s i hd) Q h := by
  unfold appendItem at hok
  obtain ⟨r, hok⟩ := hok
  split at hok
  case isFalse => cases hok
  case isTrue hs =>
  split at hok
  case h_2 => cases hok
  case h_1 tag items style start stop hget =>
  split at hok
  case isFalse => cases hok
  case isTrue hi =>
  have hrun : ∀ ok, appendItem s i ok d = if ok then .ok (1, { d with nodes := d.nodes.set (s.toNat - 1) { tag, data := .sequence (items ++ [i.toNat]) style, start, stop } })
      else .ok (0, d) := by
    intro ok
    unfold appendItem
    rw [if_pos hs, hget]
    simp only [hi, if_true]
  obtain ⟨a, n, h1, hn, h2, x, rest, hnodes, hlen, hnode, hperm, hset⟩ := docAt_node ha hget
  obtain ⟨p, a2, n2, y, rfl, hstr, hne, rfl⟩ := hnode
  have hperm2 : (b ++ bs).Perm ((a, stkObj (h1 ++ HNode.sequence p ⟨some a2, items.length⟩ style :: h2) n) ::
      (a2, stkObj (items.map Int.ofNat) n2) :: (y ++ (rest ++ bs))) := by
    rw [List.perm_iff_count] at hperm ⊢
    intro z
    have := hperm z
    simp only [List.count_append, List.count_cons, List.count_nil] at this ⊢
    omega
  have e := e.perm hperm2
  have hint : (Int.ofNat i.toNat) = i := by
    have := of_decide_eq_true hi
    exact Int.toNat_of_nonneg (by omega)
  unfold hAppendItem
  rw [hw_bind]
  refine hw_assertH (by rw [hValidId_eq ha]; exact hs) ?_
  rw [hw_bind, hnodes]
  refine hw_get (v := HNode.sequence p ⟨some a2, items.length⟩ style) e List.mem_cons_self (by rw [hlen]; simp) ?_
  simp only []
  rw [hw_bind]
  refine hw_assertH (by rw [hValidId_eq ha]; exact hi) ?_
  rw [hw_bind]
  have hmap : items.length = (items.map Int.ofNat).length := by simp
  have done : ∀ (g : Heap) (ok : Bool) (a3 n3 : Nat) (items' : List Nat), (items' ≠ [] ∨ n3 ≠ 0) →
      Ext A base ((a3, stkObj (items'.map Int.ofNat) n3) :: (a, stkObj (h1 ++ HNode.sequence p ⟨some a2, items.length⟩ style :: h2) n) :: (y ++ (rest ++ bs))) g →
      (∀ h' b', DocAt { d with nodes := d.nodes.set (s.toNat - 1) { tag, data := .sequence items' style, start, stop } } hd b' → Ext A base (b' ++ bs) h' →
        Q (if ok = true then 1 else 0, hd) h') →
      hw (do
        hSet (s.toNat - 1) (HNode.sequence p ⟨some a3, items'.length⟩ style) ⟨some a, (h1 ++ HNode.sequence p ⟨some a2, items.length⟩ style :: h2).length⟩
        return (if ok then 1 else 0, hd)) Q g := by
    intro g ok a3 n3 items' hne' e3 hq
    rw [hw_bind]
    refine hw_set (w := HNode.sequence p ⟨some a3, items'.length⟩ style) e3 (List.Perm.swap _ _ _) hlen (fun g4 e4 => ?_)
    rw [hw_pure]
    obtain ⟨b', j1, j2⟩ := hset { tag, data := .sequence items' style, start, stop } (HNode.sequence p ⟨some a3, items'.length⟩ style)
      (y ++ [(a3, stkObj (items'.map Int.ofNat) n3)]) ⟨p, a3, n3, y, rfl, hstr, hne', rfl⟩
    refine hq g4 b' j1 (e4.perm ?_)
    rw [List.perm_iff_count] at j2 ⊢
    intro z
    have := j2 z
    simp only [List.count_append, List.count_cons, List.count_nil] at this ⊢
    omega
  have hdoc : d = { d with nodes := d.nodes.set (s.toNat - 1) { tag, data := .sequence items style, start, stop } } := by
    have hm : d.nodes.set (s.toNat - 1) { tag, data := .sequence items style, start, stop } = d.nodes := by
      obtain ⟨hlt, hg⟩ := List.getElem?_eq_some_iff.mp hget
      rw [← hg]
      exact List.set_getElem_self hlt
    rw [hm]
  rw [hmap]
  refine hw_push (bs' := (a, stkObj (h1 ++ HNode.sequence p ⟨some a2, items.length⟩ style :: h2) n) :: (y ++ (rest ++ bs))) e (List.Perm.swap _ _ _)
    (fun g2 e2 hA => ?_) (fun g2 a' n' e2 => ?_) (by simpa using hne)
  · rw [← hmap]
    simp only []
    refine done g2 false a2 n2 items hne (e2.perm (List.Perm.swap _ _ _)) (fun h' b' k1 k2 => ?_)
    rw [← hdoc] at k1
    refine hQ h' _ false d b' (hrun false) k1 k2 (fun a => .inr (.inr ⟨_, List.mem_of_getElem? hget, ?_⟩))
    simpa using hA a
  · rw [← hmap]
    simp only []
    have hl2 : items.length + 1 = (items ++ [i.toNat]).length := by simp
    rw [hl2]
    refine done g2 true a' n' (items ++ [i.toNat]) (.inl (by simp)) ?_ (fun h' b' k1 k2 => ?_)
    · rw [List.map_append, List.map_singleton, hint]; exact e2
    · exact hQ h' _ true _ b' (hrun true) k1 k2 (fun _ => .inl rfl)

theorem hw_appendPair {d : Doc} {hd : HDoc} {b : Blocks} {s i w : Int} {Q : Int × HDoc → Heap → Prop} (e : Ext A base (b ++ bs) h) (ha : DocAt d hd b)
    (hok : ∃ r, appendPair s i w true d = .ok r)
    (hQ : ∀ h' r ok d' b', appendPair s i w ok d = .ok (r, d') → DocAt d' hd b' → Ext A base (b' ++ bs) h' → (A → ok = true ∨ d.Full) → Q (r, hd) h') :
    hw (hAppendPair s i w hd) Q h := by
  unfold appendPair at hok
  obtain ⟨r, hok⟩ := hok
  split at hok
  case isFalse => cases hok
  case isTrue hs =>
  split at hok
  case h_2 => cases hok
  case h_1 tag items style start stop hget =>
  split at hok
  case isFalse => cases hok
  case isTrue hi =>
  have hrun : ∀ ok, appendPair s i w ok d = if ok then .ok (1, { d with nodes := d.nodes.set (s.toNat - 1) { tag, data := .mapping (items ++ [(i.toNat, w.toNat)]) style, start, stop } })
      else .ok (0, d) := by
    intro ok
    unfold appendPair
    rw [if_pos hs, hget]
    simp only [hi, and_self, if_true]
  obtain ⟨a, n, h1, hn, h2, x, rest, hnodes, hlen, hnode, hperm, hset⟩ := docAt_node ha hget
  obtain ⟨p, a2, n2, y, rfl, hstr, hne, rfl⟩ := hnode
  have hperm2 : (b ++ bs).Perm ((a, stkObj (h1 ++ HNode.mapping p ⟨some a2, items.length⟩ style :: h2) n) ::
      (a2, stkObj (items.map fun x => (Int.ofNat x.1, Int.ofNat x.2)) n2) :: (y ++ (rest ++ bs))) := by
    rw [List.perm_iff_count] at hperm ⊢
    intro z
    have := hperm z
    simp only [List.count_append, List.count_cons, List.count_nil] at this ⊢
    omega
  have e := e.perm hperm2
  have hint : (Int.ofNat i.toNat, Int.ofNat w.toNat) = (i, w) := by
    have h1 := of_decide_eq_true hi.1
    have h2 := of_decide_eq_true hi.2
    exact Prod.ext (Int.toNat_of_nonneg (by omega)) (Int.toNat_of_nonneg (by omega))
  unfold hAppendPair
  rw [hw_bind]
  refine hw_assertH (by rw [hValidId_eq ha]; exact hs) ?_
  rw [hw_bind, hnodes]
  refine hw_get (v := HNode.mapping p ⟨some a2, items.length⟩ style) e List.mem_cons_self (by rw [hlen]; simp) ?_
  simp only []
  rw [hw_bind]
  refine hw_assertH (by rw [hValidId_eq ha]; exact hi.1) ?_
  rw [hw_bind]
  refine hw_assertH (by rw [hValidId_eq ha]; exact hi.2) ?_
  rw [hw_bind]
  have hmap : items.length = (items.map fun x => (Int.ofNat x.1, Int.ofNat x.2)).length := by simp
  have done : ∀ (g : Heap) (ok : Bool) (a3 n3 : Nat) (items' : List (Nat × Nat)), (items' ≠ [] ∨ n3 ≠ 0) →
      Ext A base ((a3, stkObj (items'.map fun x => (Int.ofNat x.1, Int.ofNat x.2)) n3) :: (a, stkObj (h1 ++ HNode.mapping p ⟨some a2, items.length⟩ style :: h2) n) :: (y ++ (rest ++ bs))) g →
      (∀ h' b', DocAt { d with nodes := d.nodes.set (s.toNat - 1) { tag, data := .mapping items' style, start, stop } } hd b' → Ext A base (b' ++ bs) h' →
        Q (if ok = true then 1 else 0, hd) h') →
      hw (do
        hSet (s.toNat - 1) (HNode.mapping p ⟨some a3, items'.length⟩ style) ⟨some a, (h1 ++ HNode.mapping p ⟨some a2, items.length⟩ style :: h2).length⟩
        return (if ok then 1 else 0, hd)) Q g := by
    intro g ok a3 n3 items' hne' e3 hq
    rw [hw_bind]
    refine hw_set (w := HNode.mapping p ⟨some a3, items'.length⟩ style) e3 (List.Perm.swap _ _ _) hlen (fun g4 e4 => ?_)
    rw [hw_pure]
    obtain ⟨b', j1, j2⟩ := hset { tag, data := .mapping items' style, start, stop } (HNode.mapping p ⟨some a3, items'.length⟩ style)
      (y ++ [(a3, stkObj (items'.map fun x => (Int.ofNat x.1, Int.ofNat x.2)) n3)]) ⟨p, a3, n3, y, rfl, hstr, hne', rfl⟩
    refine hq g4 b' j1 (e4.perm ?_)
    rw [List.perm_iff_count] at j2 ⊢
    intro z
    have := j2 z
    simp only [List.count_append, List.count_cons, List.count_nil] at this ⊢
    omega
  have hdoc : d = { d with nodes := d.nodes.set (s.toNat - 1) { tag, data := .mapping items style, start, stop } } := by
    have hm : d.nodes.set (s.toNat - 1) { tag, data := .mapping items style, start, stop } = d.nodes := by
      obtain ⟨hlt, hg⟩ := List.getElem?_eq_some_iff.mp hget
      rw [← hg]
      exact List.set_getElem_self hlt
    rw [hm]
  rw [hmap]
  refine hw_push (bs' := (a, stkObj (h1 ++ HNode.mapping p ⟨some a2, items.length⟩ style :: h2) n) :: (y ++ (rest ++ bs))) e (List.Perm.swap _ _ _)
    (fun g2 e2 hA => ?_) (fun g2 a' n' e2 => ?_) (by simpa using hne)
  · rw [← hmap]
    simp only []
    refine done g2 false a2 n2 items hne (e2.perm (List.Perm.swap _ _ _)) (fun h' b' k1 k2 => ?_)
    rw [← hdoc] at k1
    refine hQ h' _ false d b' (hrun false) k1 k2 (fun a => .inr (.inr ⟨_, List.mem_of_getElem? hget, ?_⟩))
    simpa using hA a
  · rw [← hmap]
    simp only []
    have hl2 : items.length + 1 = (items ++ [(i.toNat, w.toNat)]).length := by simp
    rw [hl2]
    refine done g2 true a' n' (items ++ [(i.toNat, w.toNat)]) (.inl (by simp)) ?_ (fun h' b' k1 k2 => ?_)
    · rw [List.map_append, List.map_singleton, hint]; exact e2
    · exact hQ h' _ true _ b' (hrun true) k1 k2 (fun _ => .inl rfl)

/-! ### Any call -/

/-- The buffers of the caller are large enough. -/
def DocCall.Defined : DocCall → Prop
  | .addScalar t v n _ => OptDef t ∧ ValueDef v n
  | .addSequence t _ => OptDef t
  | .addMapping t _ => OptDef t
  | _ => True

/-- The call of the model on values; `ok` says whether memory suffices. -/
def DocCall.op : DocCall → Bool → DOp
  | .addScalar t v n st, ok => .addScalar (t.map cbytes) (valueBytes v n) st ok
  | .addSequence t st, ok => .addSequence (t.map cbytes) st ok
  | .addMapping t st, ok => .addMapping (t.map cbytes) st ok
  | .appendItem s i, ok => .appendItem s i ok
  | .appendPair m k v, ok => .appendPair m k v ok

theorem hw_docCall {c : DocCall} {d : Doc} {hd : HDoc} {b : Blocks} {Q : Int × HDoc → Heap → Prop} (e : Ext A base (b ++ bs) h) (ha : DocAt d hd b)
    (hz : c.Defined) (hok : ∃ r, (c.op true).run d = .ok r)
    (hQ : ∀ h' r hd' ok d' b', (c.op ok).run d = .ok (r, d') → DocAt d' hd' b' → Ext A base (b' ++ bs) h' → (A → ok = true ∨ d.Full) → Q (r, hd') h') :
    hw (c.run hd) Q h := by
  cases c with
  | addScalar t v n st =>
    refine hw_addScalar e ha hz (fun h' r hd' ok d' b' h1 h2 h3 h4 => ?_)
    exact hQ h' r hd' ok d' b' (congrArg Except.ok h1) h2 h3 (fun a => (h4 a).elim .inl (fun x => .inr (.inl x)))
  | addSequence t st =>
    show hw (hAddColl Int seqTag (fun t k => HNode.sequence t k st) t hd) Q h
    refine hw_addColl (nd := fun t => { tag := t, data := .sequence [] st }) e ha hz dflt_seq ?_ (fun h' r hd' ok d' b' h1 h2 h3 h4 => ?_)
    · intro t p a x hs
      exact ⟨p, a, 16, x, rfl, hs, .inr (by decide), rfl⟩
    · refine hQ h' r hd' ok d' b' (congrArg Except.ok ?_) h2 h3 (fun a => (h4 a).elim .inl (fun x => .inr (.inl x)))
      show LibYaml.addSequence _ _ _ _ = _
      unfold LibYaml.addSequence
      exact h1
  | addMapping t st =>
    show hw (hAddColl (Int × Int) mapTag (fun t k => HNode.mapping t k st) t hd) Q h
    refine hw_addColl (nd := fun t => { tag := t, data := .mapping [] st }) e ha hz dflt_map ?_ (fun h' r hd' ok d' b' h1 h2 h3 h4 => ?_)
    · intro t p a x hs
      exact ⟨p, a, 16, x, rfl, hs, .inr (by decide), rfl⟩
    · refine hQ h' r hd' ok d' b' (congrArg Except.ok ?_) h2 h3 (fun a => (h4 a).elim .inl (fun x => .inr (.inl x)))
      show LibYaml.addMapping _ _ _ _ = _
      unfold LibYaml.addMapping
      exact h1
  | appendItem s i => exact hw_appendItem e ha hok (fun h' r ok d' b' h1 h2 h3 h4 => hQ h' r hd ok d' b' h1 h2 h3 h4)
  | appendPair m k v => exact hw_appendPair e ha hok (fun h' r ok d' b' h1 h2 h3 h4 => hQ h' r hd ok d' b' h1 h2 h3 h4)

end

end LibYaml
