import Verif.Spec.LoaderHeap
import Verif.Proofs.DocumentHeap

/-!
# The loader on the heap: helper lemmas

`LoadAt s d hs b`: the objects `hs` in the heap represent the state `s` of composing (nodes, aliases, open collections) of the document with the
directives of `d`, and own the blocks `b`.
-/

namespace LibYaml

open Spec

/-- Permutations of blocks. -/
macro "blocks" : tactic =>
  `(tactic| (rw [List.perm_iff_count]; intro z; simp only [List.count_append, List.count_cons, List.count_nil]; omega))

/-! ### Events -/

/-- An event, the event in the heap, and the blocks that belong to it. -/
def EventAt : EvData → HEvent → Blocks → Prop
  | .streamStart e, he, bs => he = .streamStart e ∧ bs = []
  | .streamEnd, he, bs => he = .streamEnd ∧ bs = []
  | .documentStart v ts i, he, bs => ∃ p s x y, he = .documentStart p s i ∧ VersionAt v p x ∧ TagsAt (ts.map dirText) s y ∧ bs = x ++ y
  | .documentEnd i, he, bs => he = .documentEnd i ∧ bs = []
  | .alias a, he, bs => ∃ p, he = .alias p ∧ StrAt (some (textBytes a)) p bs
  | .scalar a t v pi qi st, he, bs => ∃ p q r x y z, he = .scalar p q r (textBytes v).length pi qi st ∧ StrAt (a.map textBytes) p x ∧
      StrAt (t.map textBytes) q y ∧ StrAt (some (textBytes v)) r z ∧ bs = x ++ (y ++ z)
  | .sequenceStart a t i st, he, bs => ∃ p q x y, he = .sequenceStart p q i st ∧ StrAt (a.map textBytes) p x ∧ StrAt (t.map textBytes) q y ∧ bs = x ++ y
  | .sequenceEnd, he, bs => he = .sequenceEnd ∧ bs = []
  | .mappingStart a t i st, he, bs => ∃ p q x y, he = .mappingStart p q i st ∧ StrAt (a.map textBytes) p x ∧ StrAt (t.map textBytes) q y ∧ bs = x ++ y
  | .mappingEnd, he, bs => he = .mappingEnd ∧ bs = []

section
variable {A : Prop} {base : Nat → Option Obj} {bs bs' : Blocks} {h : Heap}

theorem hw_give {o : Obj} {Q : Ptr → Heap → Prop} (e : Ext A base bs h) (h1 : ∀ h' p, Ext A base ((p, o) :: bs) h' → Q (some p) h') : hw (give o) Q h := by
  have e2 : Ext A base bs { h with ok := fun k => if k = 0 then true else h.ok (k - 1) } :=
    ⟨e.cells, e.keys, e.sep, e.fresh, fun a k => by
      by_cases hk : k = 0
      · simp [hk]
      · simp [hk, e.all a]⟩
  have := hw_malloc (o := o) (Q := fun p h' => p ≠ none → Q p { h' with ok := h.ok }) e2 (fun _ _ _ hn => absurd rfl hn) (fun h' p e' _ => by
    refine h1 _ p ⟨e'.cells, e'.keys, e'.sep, e'.fresh, fun a => e.all a⟩)
  unfold hw malloc at this
  simp only [if_true] at this
  exact this (by simp)

theorem hw_giveText {t : Text} {Q : Ptr → Heap → Prop} (e : Ext A base bs h)
    (h1 : ∀ h' p x, StrAt (some (textBytes t)) p x → Ext A base (x ++ bs) h' → Q p h') : hw (giveText t) Q h :=
  hw_give e fun h' p e' => h1 h' (some p) _ ⟨p, [], rfl, rfl⟩ e'

theorem hw_giveOption {t : Option Text} {Q : Ptr → Heap → Prop} (e : Ext A base bs h)
    (h1 : ∀ h' p x, StrAt (t.map textBytes) p x → Ext A base (x ++ bs) h' → Q p h') : hw (giveOption t) Q h := by
  cases t with
  | none => exact h1 h none [] ⟨rfl, rfl⟩ e
  | some t => exact hw_giveText e h1

theorem hw_giveVersion {v : Option Version} {Q : Ptr → Heap → Prop} (e : Ext A base bs h)
    (h1 : ∀ h' p x, VersionAt v p x → Ext A base (x ++ bs) h' → Q p h') : hw (giveVersion v) Q h := by
  cases v with
  | none => exact h1 h none [] ⟨rfl, rfl⟩ e
  | some v => exact hw_give e fun h' p e' => h1 h' (some p) _ ⟨p, rfl, rfl⟩ e'

theorem hw_giveDirs {ds : List TagDir} {Q : List (Ptr × Ptr) → Heap → Prop} (e : Ext A base bs h)
    (h1 : ∀ h' vs x, DirsAt (ds.map dirText) vs x → Ext A base (x ++ bs) h' → Q vs h') : hw (giveDirs ds) Q h := by
  induction ds generalizing bs h Q with
  | nil => exact h1 h [] [] ⟨rfl, rfl⟩ e
  | cons d ds ih =>
    unfold giveDirs
    rw [hw_bind]
    refine hw_giveText e fun h2 p x k1 e2 => ?_
    rw [hw_bind]
    refine hw_giveText e2 fun h3 q y k2 e3 => ?_
    rw [hw_bind]
    refine ih e3 fun h4 vs z k3 e4 => ?_
    rw [hw_pure]
    exact h1 h4 _ (x ++ (y ++ z)) ⟨p, q, vs, x, y, z, rfl, k1, k2, k3, rfl⟩ (e4.perm (by blocks))

theorem hw_giveTags {ds : List TagDir} {Q : HStk → Heap → Prop} (e : Ext A base bs h)
    (h1 : ∀ h' s x, TagsAt (ds.map dirText) s x → Ext A base (x ++ bs) h' → Q s h') : hw (giveTags ds) Q h := by
  unfold giveTags
  rw [hw_ite]
  cases ds with
  | nil => exact h1 h {} [] ⟨rfl, rfl⟩ e
  | cons d ds =>
    rw [if_neg (by simp), hw_bind]
    refine hw_giveDirs e fun h2 vs x k1 e2 => ?_
    rw [hw_bind]
    refine hw_give e2 fun h3 a e3 => ?_
    rw [hw_pure]
    refine h1 h3 _ ((a, stkObj vs 0) :: x) ?_ (by
      have : Cell.wrap (vs.map some) = stkObj vs 0 := by simp [stkObj]
      rw [this] at e3
      exact e3)
    unfold TagsAt
    rw [if_neg (by simp)]
    exact ⟨a, 0, vs, x, rfl, k1, rfl⟩

theorem hw_giveEvent {ev : EvData} {Q : HEvent → Heap → Prop} (e : Ext A base bs h)
    (h1 : ∀ h' he x, EventAt ev he x → Ext A base (x ++ bs) h' → Q he h') : hw (giveEvent ev) Q h := by
  cases ev with
  | streamStart en => exact h1 h _ [] ⟨rfl, rfl⟩ e
  | streamEnd => exact h1 h _ [] ⟨rfl, rfl⟩ e
  | documentEnd i => exact h1 h _ [] ⟨rfl, rfl⟩ e
  | sequenceEnd => exact h1 h _ [] ⟨rfl, rfl⟩ e
  | mappingEnd => exact h1 h _ [] ⟨rfl, rfl⟩ e
  | documentStart v ts i =>
    unfold giveEvent
    rw [hw_bind]
    refine hw_giveVersion e fun h2 p x k1 e2 => ?_
    rw [hw_bind]
    refine hw_giveTags e2 fun h3 s y k2 e3 => ?_
    exact h1 h3 _ (x ++ y) ⟨p, s, x, y, rfl, k1, k2, rfl⟩ (e3.perm (by blocks))
  | «alias» a =>
    unfold giveEvent
    rw [hw_bind]
    exact hw_giveText e fun h2 p x k1 e2 => h1 h2 _ x ⟨p, rfl, k1⟩ e2
  | scalar a t v pi qi st =>
    unfold giveEvent
    rw [hw_bind]
    refine hw_giveOption e fun h2 p x k1 e2 => ?_
    rw [hw_bind]
    refine hw_giveOption e2 fun h3 q y k2 e3 => ?_
    rw [hw_bind]
    refine hw_giveText e3 fun h4 r z k3 e4 => ?_
    exact h1 h4 _ (x ++ (y ++ z)) ⟨p, q, r, x, y, z, rfl, k1, k2, k3, rfl⟩ (e4.perm (by blocks))
  | sequenceStart a t i st =>
    unfold giveEvent
    rw [hw_bind]
    refine hw_giveOption e fun h2 p x k1 e2 => ?_
    rw [hw_bind]
    refine hw_giveOption e2 fun h3 q y k2 e3 => ?_
    exact h1 h3 _ (x ++ y) ⟨p, q, x, y, rfl, k1, k2, rfl⟩ (e3.perm (by blocks))
  | mappingStart a t i st =>
    unfold giveEvent
    rw [hw_bind]
    refine hw_giveOption e fun h2 p x k1 e2 => ?_
    rw [hw_bind]
    refine hw_giveOption e2 fun h3 q y k2 e3 => ?_
    exact h1 h3 _ (x ++ y) ⟨p, q, x, y, rfl, k1, k2, rfl⟩ (e3.perm (by blocks))

/-! ### Strings -/

theorem ctext_zero {t : Text} (h : CText t) : (0 : UInt8) ∉ textBytes t := by
  intro h0
  obtain ⟨c, hc, h0⟩ := List.mem_flatMap.mp h0
  exact octets_ne_zero (h c hc).1 (h c hc).2 h0

theorem Spec.AnchorText.ctext {t : Text} (h : AnchorText t) : CText t := fun c hc => ⟨by have := h c hc; omega, .inl (by have := h c hc; omega)⟩

theorem anchor_inj {a b : Text} (ha : AnchorText a) (hb : AnchorText b) (h : textBytes a = textBytes b) : a = b := by
  have key : ∀ {t : Text}, AnchorText t → (textBytes t).map UInt8.toNat = t := by
    intro t ht
    induction t with
    | nil => rfl
    | cons c t ih =>
      have hc := ht c (.head _)
      have : textBytes (c :: t) = UInt8.ofNat c :: textBytes t := by
        show octets c ++ textBytes t = _
        rw [octets_low hc.2]
        rfl
      rw [this, List.map_cons, ih (fun x hx => ht x (.tail _ hx))]
      congr 1
      simp
      omega
  rw [← key ha, ← key hb, h]

theorem textBytes_bang {t : Text} : textBytes t = [0x21] ↔ t = lit ['!'] := by
  constructor
  · intro h
    cases t with
    | nil => cases h
    | cons c t =>
      have hc : octets c ++ textBytes t = [0x21] := h
      by_cases hlt : c < 0x80
      · rw [octets_low hlt, List.singleton_append, List.cons.injEq] at hc
        obtain ⟨h1, h2⟩ := hc
        have ht : t = [] := by
          cases t with
          | nil => rfl
          | cons d t => exact absurd (List.append_eq_nil_iff.mp h2).1 (octets_ne_nil d)
        have := congrArg UInt8.toNat h1
        simp at this
        have hc : c = 0x21 := by omega
        subst hc ht
        rfl
      · obtain ⟨a, b, r, e⟩ := octets_long (by omega : 0x80 ≤ c)
        rw [e] at hc
        cases hc
  · rintro rfl
    decide

theorem cbytes_string {b z : List UInt8} (h : (0 : UInt8) ∉ b) : cbytes (b ++ 0 :: z) = b := by
  unfold cbytes
  induction b with
  | nil => rfl
  | cons x b ih =>
    simp only [List.mem_cons, not_or] at h
    rw [List.cons_append, List.takeWhile_cons, if_pos (by simpa using fun hx => h.1 hx.symm), ih h.2]

theorem hw_string {b : List UInt8} {p : Ptr} {x : Blocks} {Q : List UInt8 → Heap → Prop} (e : Ext A base bs h) (hs : StrAt (some b) p x)
    (hx : ∀ y ∈ x, y ∈ bs) (h0 : (0 : UInt8) ∉ b) (hQ : Q b h) : hw (hString p) Q h := by
  obtain ⟨a, z, rfl, rfl⟩ := hs
  unfold hString
  rw [hw_bind]
  refine hw_load e (hx _ List.mem_cons_self) ?_
  simp only []
  rw [hw_bind]
  refine hw_strlen (by simp) ?_
  refine hw_bytesOf (cbytes_take _).1 ?_
  rw [(cbytes_take _).2, cbytes_string h0]
  exact hQ

/-! ### Aliases -/

/-- The aliases, their cells, and the blocks of the anchors. -/
def AliasCells : List AliasData → List (Ptr × Nat) → Blocks → Prop
  | [], vs, bs => vs = [] ∧ bs = []
  | d :: ds, vs, bs => ∃ p vs' x rest, vs = (p, d.index) :: vs' ∧ AnchorText d.anchor ∧ StrAt (some (textBytes d.anchor)) p x ∧ AliasCells ds vs' rest ∧ bs = x ++ rest

/-- The stack of aliases. -/
def AliasAt (as : List AliasData) (s : HStk) (bs : Blocks) : Prop :=
  ∃ a n vs b, s = ⟨some a, vs.length⟩ ∧ AliasCells as vs b ∧ (vs ≠ [] ∨ n ≠ 0) ∧ bs = (a, stkObj vs n) :: b

theorem aliasCells_length {as : List AliasData} {vs : List (Ptr × Nat)} {b : Blocks} (k : AliasCells as vs b) : vs.length = as.length := by
  induction as generalizing vs b with
  | nil => rw [k.1]; rfl
  | cons d as ih =>
    obtain ⟨p, vs', x, rest, rfl, _, _, k, _⟩ := k
    simp [ih k]

theorem aliasCells_append {as cs : List AliasData} {vs ws : List (Ptr × Nat)} {b c : Blocks} (k1 : AliasCells as vs b) (k2 : AliasCells cs ws c) :
    AliasCells (as ++ cs) (vs ++ ws) (b ++ c) := by
  induction as generalizing vs b with
  | nil =>
    obtain ⟨rfl, rfl⟩ := k1
    exact k2
  | cons d as ih =>
    obtain ⟨p, vs', x, rest, rfl, h1, h2, k, rfl⟩ := k1
    exact ⟨p, vs' ++ ws, x, rest ++ c, rfl, h1, h2, ih k, by rw [List.append_assoc]⟩

theorem hw_find {as : List AliasData} {pre vs : List (Ptr × Nat)} {a n t : Nat} {b x : Blocks} {anchor : Text} {p : Ptr} {Q : Option Nat → Heap → Prop}
    (e : Ext A base bs h) (k : AliasCells as vs b) (hb : ∀ y ∈ b, y ∈ bs) (ha : (a, stkObj (pre ++ vs) n) ∈ bs)
    (hs : StrAt (some (textBytes anchor)) p x) (hx : ∀ y ∈ x, y ∈ bs) (hanchor : AnchorText anchor)
    (hQ : Q ((as.find? (fun d => d.anchor == anchor)).map AliasData.index) h) : hw (hFind p ⟨some a, t⟩ vs.length pre.length) Q h := by
  induction as generalizing pre vs b with
  | nil =>
    obtain ⟨rfl, rfl⟩ := k
    exact hQ
  | cons d as ih =>
    obtain ⟨q, vs', y, rest, rfl, h1, h2, k, rfl⟩ := k
    rw [List.length_cons]
    unfold hFind
    rw [hw_bind]
    refine hw_get (v := (q, d.index)) e ha (by simp) ?_
    rw [hw_bind]
    unfold hSame
    rw [hw_bind]
    refine hw_string e h2 (fun z hz => hb z (List.mem_append_left _ hz)) (ctext_zero h1.ctext) ?_
    rw [hw_bind]
    refine hw_string e hs hx (ctext_zero hanchor.ctext) ?_
    rw [hw_pure, hw_ite]
    by_cases hd : d.anchor = anchor
    · subst hd
      rw [if_pos (by simp)]
      rw [List.find?_cons_of_pos (by simp)] at hQ
      exact hQ
    · rw [if_neg (by
        intro hh
        exact hd (anchor_inj h1 hanchor (by simpa using hh)))]
      rw [List.find?_cons_of_neg (by simpa using hd)] at hQ
      have := ih (pre := pre ++ [(q, d.index)]) k (fun z hz => hb z (List.mem_append_right _ hz)) (by simpa using ha) hQ
      rw [List.length_append] at this
      exact this

/-! ### The state of composing -/

/-- The stack of open collections, the innermost one on top. -/
def CtxAt (ctx : List Nat) (s : HStk) (bs : Blocks) : Prop :=
  ∃ a n, s = ⟨some a, ctx.length⟩ ∧ (ctx ≠ [] ∨ n ≠ 0) ∧ bs = [(a, stkObj (ctx.reverse.map Int.ofNat) n)]

/-- The state of composing the document `d` (without nodes) in the heap. -/
def LoadAt (s : CState) (d : Doc) (hs : HLoad) (b : Blocks) : Prop :=
  ∃ b1 b2 b3, DocAt { d with nodes := s.nodes } hs.doc b1 ∧ AliasAt s.aliases hs.aliases b2 ∧ CtxAt s.ctx hs.ctx b3 ∧ b = b1 ++ (b2 ++ b3)

/-- No stack has more than `N` elements. -/
structure Sized (s : CState) (N : Nat) : Prop where
  nodes : s.nodes.length ≤ N
  aliases : s.aliases.length ≤ N
  ctx : s.ctx.length ≤ N
  items : ∀ nd ∈ s.nodes, match nd.data with
    | .scalar _ _ => True
    | .sequence items _ => items.length ≤ N
    | .mapping pairs _ => pairs.length ≤ N

theorem limit_mono {α : Type} [Cell α] {n N : Nat} (h : stackLimit α n) (hn : n ≤ N) (hs : Cell.size α ≤ Cell.size HNode) : stackLimit HNode N :=
  Nat.le_trans h (Nat.mul_le_mul hn hs)

theorem limit_hlimit {s : HStk} {N : Nat} (h : ¬ hLimit s = true) (hn : s.top ≤ N) : stackLimit HNode N := by
  have h : ¬ s.top < intMax - 1 := by simpa [hLimit] using h
  have : intMax = 2147483647 := rfl
  show N * 96 ≥ intMax / 2
  omega

theorem hw_addPair {pairs : List (Nat × Nat)} {index a n N : Nat} {Q : Bool × HStk → Heap → Prop} (e : Ext A base bs h)
    (hp : bs.Perm ((a, stkObj (pairs.map fun x => (Int.ofNat x.1, Int.ofNat x.2)) n) :: bs')) (hne : pairs ≠ [] ∨ n ≠ 0) (hN : pairs.length ≤ N)
    (h0 : ∀ h', Ext A base bs h' → (A → stackLimit HNode N) → Q (false, ⟨some a, pairs.length⟩) h')
    (h1 : ∀ h' a' n' pairs', addToPairs roomy pairs index = .ok pairs' → (pairs' ≠ [] ∨ n' ≠ 0) →
      Ext A base ((a', stkObj (pairs'.map fun x => (Int.ofNat x.1, Int.ofNat x.2)) n') :: bs') h' → Q (true, ⟨some a', pairs'.length⟩) h') :
    hw (hAddPair index ⟨some a, pairs.length⟩) Q h := by
  have hmap : pairs.length = (pairs.map fun x => (Int.ofNat x.1, Int.ofNat x.2)).length := by simp
  have again : (∀ p ∈ pairs.getLast?, ¬ (p.1 ≠ 0 ∧ p.2 = 0)) → hw (do
      if !hLimit ⟨some a, pairs.length⟩ then return (false, ⟨some a, pairs.length⟩) else hPush ((index : Int), (0 : Int)) ⟨some a, pairs.length⟩) Q h := by
    intro hlast
    have hval : addToPairs roomy pairs index = .ok (pairs ++ [(index, 0)]) := by
      unfold addToPairs roomy
      cases hg : pairs.getLast? with
      | none => rfl
      | some p =>
        have := hlast p hg
        simp only [this, if_false, if_true]
    rw [hw_ite]
    split
    · rename_i hl
      exact h0 h e (fun _ => limit_hlimit (by simpa using hl) hN)
    · rw [hmap]
      refine hw_push e hp (fun h' e' ha => ?_) (fun h' a' n' e' => ?_) (by simpa using hne)
      · rw [← hmap]
        refine h0 h' e' (fun x => limit_mono (ha x) ?_ ?_)
        · rw [← hmap]; exact hN
        · decide
      · have := h1 h' a' n' _ hval (.inl (by simp)) (by rw [List.map_append]; exact e')
        rw [List.length_append] at this
        rw [← hmap]
        exact this
  unfold hAddPair
  simp only []
  rw [hw_ite]
  rcases List.eq_nil_or_concat pairs with rfl | ⟨pre, ⟨k, v⟩, rfl⟩
  · rw [if_pos (by rfl)]
    exact again (by simp)
  · rw [if_neg (by simp), hw_bind]
    refine hw_get (v := ((k : Int), (v : Int))) e (hp.mem_iff.mpr List.mem_cons_self) (by simp) ?_
    rw [hw_ite]
    split
    · rename_i hc
      rw [hw_bind]
      have hk : k ≠ 0 ∧ v = 0 := by
        simp only [ne_eq] at hc
        omega
      refine hw_set (vs := pre.map fun x => (Int.ofNat x.1, Int.ofNat x.2)) (ws := []) (v := ((k : Int), (v : Int))) (w := ((k : Int), (index : Int)))
        (n := n) (bs' := bs') e (hp.trans (by simp)) (by simp) (fun h' e' => ?_)
      rw [hw_pure]
      have := h1 h' a n (pre ++ [(k, index)]) (by
        unfold addToPairs
        simp [hk]) (.inl (by simp)) (by simpa using e')
      simp only [List.length_append, List.length_singleton, List.concat_eq_append] at this ⊢
      exact this
    · rename_i hc
      refine again (fun p hp2 => ?_)
      simp at hp2
      subst hp2
      simp only [ne_eq] at hc ⊢
      omega

theorem hw_nodeAdd {s : CState} {d : Doc} {hs : HLoad} {b : Blocks} {index N : Nat} {Q : Bool × HLoad → Heap → Prop} (e : Ext A base (b ++ bs) h)
    (ha : LoadAt s d hs b) (hN : Sized s N) (hub : nodeAdd roomy index s ≠ .error .ub)
    (h0 : ∀ h' b', LoadAt s d hs b' → Ext A base (b' ++ bs) h' → (A → stackLimit HNode N) → Q (false, hs) h')
    (h1 : ∀ h' s' b', nodeAdd roomy index s = .ok s' → LoadAt s' d hs b' → Ext A base (b' ++ bs) h' → Q (true, hs) h') :
    hw (hNodeAdd index hs) Q h := by
  obtain ⟨b1, b2, b3, k1, k2, k3, rfl⟩ := ha
  obtain ⟨ca, cn, hctx, hcne, rfl⟩ := k3
  unfold hNodeAdd
  rw [hw_ite, hctx]
  cases hc : s.ctx with
  | nil =>
    rw [hc] at hctx hcne
    rw [if_pos (by rfl)]
    refine h1 h s _ (by unfold nodeAdd; rw [hc]) ⟨b1, b2, _, k1, k2, ⟨ca, cn, by rw [hc]; exact hctx, by rw [hc]; exact hcne, rfl⟩, rfl⟩ e
  | cons c cs =>
    unfold nodeAdd at hub
    rw [hc] at hub
    simp only [] at hub
    rw [if_neg (by simp), hw_bind]
    refine hw_get (vs := s.ctx.reverse.map Int.ofNat) (n := cn) (v := (c : Int)) e (by simp) (by rw [hc]; simp) ?_
    cases hg : s.nodes[c - 1]? with
    | none =>
      rw [hg] at hub
      exact absurd rfl hub
    | some parent =>
    rw [hg] at hub
    simp only [] at hub
    obtain ⟨a, n, g1, hn, g2, x, rest, hnodes, hlen, hnode, hperm, hset⟩ := docAt_node k1 hg
    have hN4 := hN.items _ (List.mem_of_getElem? hg)
    obtain ⟨tag, data, start, stop⟩ := parent
    rw [hw_bind, hnodes]
    have hpm := hperm
    have e := e.perm (bs' := (a, stkObj (g1 ++ hn :: g2) n) :: (x ++ (rest ++ (b2 ++ ((ca, stkObj (s.ctx.reverse.map Int.ofNat) cn) :: bs))))) (by
      rw [List.perm_iff_count] at hpm ⊢
      intro z
      have := hpm z
      simp only [List.count_append, List.count_cons, List.count_nil] at this ⊢
      omega)
    refine hw_get (v := hn) e List.mem_cons_self (by rw [Int.toNat_natCast, hlen]; simp) ?_
    have hsame : s.nodes.set (c - 1) ⟨tag, data, start, stop⟩ = s.nodes := by
      obtain ⟨hlt, hgg⟩ := List.getElem?_eq_some_iff.mp hg
      rw [← hgg]
      exact List.set_getElem_self hlt
    -- the parent with another list of children
    have done : ∀ (g : Heap) (ok : Bool) (data' : NodeData) (hn' : HNode) (x' : Blocks), NodeAt ⟨tag, data', start, stop⟩ hn' x' →
        Ext A base ((a, stkObj (g1 ++ hn :: g2) n) :: (x' ++ (rest ++ (b2 ++ ((ca, stkObj (s.ctx.reverse.map Int.ofNat) cn) :: bs))))) g →
        (∀ h' b', LoadAt { s with nodes := s.nodes.set (c - 1) ⟨tag, data', start, stop⟩ } d hs b' → Ext A base (b' ++ bs) h' → Q (ok, hs) h') →
        hw (do
          hSet ((c : Int).toNat - 1) hn' ⟨some a, (g1 ++ hn :: g2).length⟩
          return (ok, hs)) Q g := by
      intro g ok data' hn' x' hnode' e3 hq
      rw [hw_bind]
      refine hw_set (w := hn') e3 (List.Perm.refl _) (by rw [Int.toNat_natCast, hlen]) (fun g4 e4 => ?_)
      rw [hw_pure]
      obtain ⟨b', j1, j2⟩ := hset ⟨tag, data', start, stop⟩ hn' x' hnode'
      refine hq g4 (b' ++ (b2 ++ [(ca, stkObj (s.ctx.reverse.map Int.ofNat) cn)])) ⟨b', b2, _, j1, k2, ⟨ca, cn, hctx, hcne, rfl⟩, rfl⟩ (e4.perm ?_)
      rw [List.perm_iff_count] at j2 ⊢
      intro z
      have := j2 z
      simp only [List.count_append, List.count_cons, List.count_nil] at this ⊢
      omega
    cases data with
    | scalar v st => exact absurd rfl hub
    | sequence items st =>
      obtain ⟨p, a2, n2, y, rfl, hstr, hne, rfl⟩ := hnode
      simp only []
      rw [hw_ite]
      have hN4 : items.length ≤ N := hN4
      split
      · rename_i hl
        refine h0 h _ ⟨b1, b2, _, k1, k2, ⟨ca, cn, hctx, hcne, rfl⟩, rfl⟩ (e.perm ?_) (fun _ => limit_hlimit (by simpa using hl) hN4)
        rw [List.perm_iff_count] at hpm ⊢
        intro z
        have := hpm z
        simp only [List.count_append, List.count_cons, List.count_nil] at this ⊢
        omega
      · rw [hw_bind]
        have hmap : items.length = (items.map Int.ofNat).length := by simp
        rw [hmap]
        refine hw_push (n := n2) (bs' := (a, stkObj (g1 ++ HNode.sequence p ⟨some a2, items.length⟩ st :: g2) n) :: (y ++ (rest ++ (b2 ++ ((ca, stkObj (s.ctx.reverse.map Int.ofNat) cn) :: bs)))))
          e (by blocks) (fun g2 e2 hA => ?_) (fun g2 a' n' e2 => ?_) (by simpa using hne)
        · rw [← hmap]
          refine done g2 false (.sequence items st) _ _ ⟨p, a2, n2, y, rfl, hstr, hne, rfl⟩ e2 (fun h' b' j1 j2 => ?_)
          rw [hsame] at j1
          refine h0 h' b' j1 j2 (fun x => limit_mono (hA x) (by rw [← hmap]; exact hN4) (by decide))
        · rw [← hmap]
          have hl2 : items.length + 1 = (items ++ [index]).length := by simp
          simp only [hl2]
          refine done g2 true (.sequence (items ++ [index]) st) _ _ ⟨p, a', n', y, rfl, hstr, .inl (by simp), rfl⟩ (e2.perm ?_) (fun h' b' j1 j2 => ?_)
          · rw [List.map_append]
            show List.Perm ((a', stkObj (items.map Int.ofNat ++ [Int.ofNat index]) n') :: _) _
            simp only [List.map_singleton]
            blocks
          · refine h1 h' _ b' ?_ j1 j2
            unfold nodeAdd
            simp only [hc, hg]
            rfl
    | mapping pairs st =>
      obtain ⟨p, a2, n2, y, rfl, hstr, hne, rfl⟩ := hnode
      simp only []
      have hN4 : pairs.length ≤ N := hN4
      rw [hw_bind]
      refine hw_addPair (n := n2) (bs' := (a, stkObj (g1 ++ HNode.mapping p ⟨some a2, pairs.length⟩ st :: g2) n) :: (y ++ (rest ++ (b2 ++ ((ca, stkObj (s.ctx.reverse.map Int.ofNat) cn) :: bs)))))
          e (by blocks) hne hN4 (fun g2 e2 hA => ?_) (fun g2 a' n' pairs' hval hne' e2 => ?_)
      · refine done g2 false (.mapping pairs st) _ _ ⟨p, a2, n2, y, rfl, hstr, hne, rfl⟩ e2 (fun h' b' j1 j2 => ?_)
        rw [hsame] at j1
        exact h0 h' b' j1 j2 hA
      · refine done g2 true (.mapping pairs' st) _ _ ⟨p, a', n', y, rfl, hstr, hne', rfl⟩ (e2.perm (by blocks)) (fun h' b' j1 j2 => ?_)
        refine h1 h' _ b' ?_ j1 j2
        unfold nodeAdd
        simp only [hc, hg]
        unfold addChild
        simp only [hval]

theorem hw_register {s : CState} {d : Doc} {hs : HLoad} {b x : Blocks} {index N : Nat} {mark : Mark} {anchor : Option Text} {p : Ptr}
    {Q : Bool × HLoad → Heap → Prop} (e : Ext A base (x ++ (b ++ bs)) h) (ha : LoadAt s d hs b) (hN : Sized s N) (hx : StrAt (anchor.map textBytes) p x)
    (hanchor : ∀ a ∈ anchor, AnchorText a)
    (h0 : ∀ h', Ext A base (b ++ bs) h' → (A → stackLimit HNode N ∨ ∃ err, registerAnchor index mark anchor s.aliases = .error err) → Q (false, hs) h')
    (h1 : ∀ h' as' hs' b', registerAnchor index mark anchor s.aliases = .ok as' → hs'.doc = hs.doc → hs'.ctx = hs.ctx → LoadAt { s with aliases := as' } d hs' b' →
      Ext A base (b' ++ bs) h' → Q (true, hs') h') : hw (hRegister index p hs) Q h := by
  cases anchor with
  | none =>
    obtain ⟨rfl, rfl⟩ := hx
    exact h1 h s.aliases hs b rfl rfl rfl ha e
  | some t =>
    have hx' := hx
    obtain ⟨pa, zs, rfl, rfl⟩ := hx
    obtain ⟨b1, b2, b3, k1, k2, k3, rfl⟩ := ha
    obtain ⟨a, n, vs, c, has, hcells, hne, rfl⟩ := k2
    have hlen := aliasCells_length hcells
    unfold hRegister
    rw [hw_ite, if_neg (by simp), hw_bind, has]
    refine hw_find (pre := []) (n := n) (b := c) e hcells (fun y hy => by simp [hy]) (by simp) hx' (fun y hy => by simp at hy; simp [hy]) (hanchor t rfl) ?_
    have hval : registerAnchor index mark (some t) s.aliases = match s.aliases.find? (fun d => d.anchor == t) with
      | some d => .error (.composer (some "found duplicate anchor; first occurrence") d.mark "second occurrence" mark)
      | none => .ok (s.aliases ++ [{ anchor := t, index := index, mark := mark }]) := rfl
    cases hf : s.aliases.find? (fun d => d.anchor == t) with
    | some f =>
      rw [hf] at hval
      simp only [Option.map_some]
      rw [hw_bind]
      exact hw_free e (List.Perm.refl _) (fun h' e' => h0 h' e' (fun _ => .inr ⟨_, hval⟩))
    | none =>
      rw [hf] at hval
      simp only [Option.map_none]
      rw [hw_bind]
      refine hw_push (n := n) (v := ((some pa, index) : Ptr × Nat)) (bs' := (pa, .bytes (textBytes t ++ 0 :: zs)) :: (c ++ (b1 ++ (b3 ++ bs)))) e (by blocks) (fun g e2 hA => ?_) (fun g a' n' e2 => ?_) hne
      · rw [if_pos (by rfl), hw_bind]
        exact hw_free e2 (List.Perm.refl _) (fun h' e' => h0 h' e' (fun x => .inl (limit_mono (hA x) (by rw [hlen]; exact hN.aliases) (by decide))))
      · rw [if_neg (by simp)]
        refine h1 g _ { hs with aliases := ⟨some a', vs.length + 1⟩ } (b1 ++ ((a', stkObj (vs ++ [(some pa, index)]) n') :: (c ++ ([(pa, .bytes (textBytes t ++ 0 :: zs))] ++ [])) ++ b3)) hval rfl rfl
          ⟨b1, (a', stkObj (vs ++ [(some pa, index)]) n') :: (c ++ ([(pa, .bytes (textBytes t ++ 0 :: zs))] ++ [])), b3, k1,
            ⟨a', n', vs ++ [(some pa, index)], c ++ ([(pa, .bytes (textBytes t ++ 0 :: zs))] ++ []), by simp, aliasCells_append hcells ⟨some pa, [], _, [], rfl, hanchor t rfl, hx', ⟨rfl, rfl⟩, rfl⟩, .inl (by simp), rfl⟩, k3, rfl⟩ (e2.perm (by blocks))

theorem hw_loadAlias {s : CState} {d : Doc} {hs : HLoad} {b x : Blocks} {N : Nat} {mark : Mark} {anchor : Text} {p : Ptr}
    {Q : Bool × HLoad → Heap → Prop} (e : Ext A base (x ++ (b ++ bs)) h) (ha : LoadAt s d hs b) (hN : Sized s N) (hx : StrAt (some (textBytes anchor)) p x)
    (hanchor : AnchorText anchor) (hub : loadAlias roomy anchor mark s ≠ .error .ub)
    (h0 : ∀ h' b', LoadAt s d hs b' → Ext A base (b' ++ bs) h' → (A → stackLimit HNode N ∨ ∃ err, loadAlias roomy anchor mark s = .error err) → Q (false, hs) h')
    (h1 : ∀ h' s' b', loadAlias roomy anchor mark s = .ok s' → LoadAt s' d hs b' → Ext A base (b' ++ bs) h' → Q (true, hs) h') :
    hw (hLoadAlias p hs) Q h := by
  have hx' := hx
  obtain ⟨pa, zs, rfl, rfl⟩ := hx
  have ha' := ha
  obtain ⟨b1, b2, b3, k1, k2, k3, rfl⟩ := ha
  obtain ⟨a, n, vs, c, has, hcells, hne, rfl⟩ := k2
  unfold hLoadAlias
  rw [hw_bind, has]
  refine hw_find (pre := []) (n := n) (b := c) e hcells (fun y hy => by simp [hy]) (by simp) hx' (fun y hy => by simp at hy; simp [hy]) hanchor ?_
  unfold loadAlias at hub h0 h1
  cases hf : s.aliases.find? (fun d => d.anchor == anchor) with
  | some f =>
    rw [hf] at hub h0 h1
    simp only [Option.map_some] at hub h0 h1 ⊢
    rw [hw_bind]
    exact hw_free e (List.Perm.refl _) (fun h' e' => hw_nodeAdd (bs := bs) e' ha' hN hub (fun g b' j1 j2 j3 => h0 g b' j1 j2 (fun x => .inl (j3 x))) h1)
  | none =>
    rw [hf] at h0
    simp only [Option.map_none] at h0 ⊢
    rw [hw_bind]
    exact hw_free e (List.Perm.refl _) (fun h' e' => h0 h' _ ha' e' (fun _ => .inr ⟨_, rfl⟩))

theorem hw_tag {dflt : Text} {t : Option Text} {p : Ptr} {x : Blocks} {Q : Bool × Ptr → Heap → Prop} (e : Ext A base (x ++ bs) h)
    (hx : StrAt (t.map textBytes) p x) (ht : ∀ a ∈ t, CText a) (hd : literal dflt = textBytes dflt ++ [0])
    (h0 : ∀ h', Ext A base bs h' → ¬ A → Q (false, none) h')
    (h1 : ∀ h' p' x', StrAt (some (textBytes (tagOr dflt t))) p' x' → Ext A base (x' ++ bs) h' → Q (true, p') h') : hw (hTag dflt p) Q h := by
  unfold hTag
  rw [hw_bind]
  have copy : tagOr dflt t = dflt → hw (do
      free p
      let p ← malloc (.bytes (literal dflt))
      return (p.isSome, p)) Q h := by
    intro hdflt
    rw [hw_bind]
    refine hw_free_str e hx (List.Perm.refl _) (fun g e2 => ?_)
    rw [hw_bind]
    refine hw_malloc e2 (fun g e3 hA => h0 g e3 hA) (fun g q e3 => ?_)
    refine h1 g (some q) _ ⟨q, [], rfl, rfl⟩ ?_
    rw [hdflt, ← hd]
    exact e3
  cases t with
  | none =>
    have hp : p = none := hx.1
    subst hp
    rw [hw_ite, if_pos (by rfl)]
    exact copy rfl
  | some t =>
    have hp : p.isSome = true := by
      obtain ⟨a, _, rfl, _⟩ := hx
      rfl
    rw [hw_ite, if_neg (by cases p <;> simp at hp ⊢), hw_bind]
    refine hw_string (b := textBytes t) e hx (fun y hy => List.mem_append_left _ hy) (ctext_zero (ht t rfl)) ?_
    rw [hw_pure, hw_ite]
    by_cases hb : t = lit ['!']
    · rw [if_pos (by rw [textBytes_bang.mpr hb]; rfl)]
      exact copy (if_pos hb)
    · rw [if_neg (by
        intro hh
        exact hb (textBytes_bang.mp (by simpa using hh)))]
      refine h1 h p x ?_ e
      have : tagOr dflt (some t) = t := if_neg hb
      rw [this]
      exact hx

/-- The blocks that are lost: nothing, the empty list of children of a node, or the directives of a document. -/
def Lost (leak : Blocks) : Prop :=
  leak = [] ∨ (∃ a, leak = [(a, stkObj ([] : List Int) 16)]) ∨ (∃ a, leak = [(a, stkObj ([] : List (Int × Int)) 16)]) ∨
    ∃ v ts p s x y, VersionAt v p x ∧ TagsAt ts s y ∧ leak = x ++ y

theorem Sized.mono {s : CState} {N M : Nat} (h : Sized s N) (hm : N ≤ M) : Sized s M := by
  refine ⟨Nat.le_trans h.nodes hm, Nat.le_trans h.aliases hm, Nat.le_trans h.ctx hm, fun nd hnd => ?_⟩
  have := h.items nd hnd
  split at this
  · trivial
  · exact Nat.le_trans this hm
  · exact Nat.le_trans this hm

/-- A new node has no children. -/
def Node.NoChild (nd : Node) : Prop :=
  match nd.data with
  | .scalar _ _ => True
  | .sequence items _ => items = []
  | .mapping pairs _ => pairs = []

theorem Sized.push {s : CState} {N : Nat} {nd : Node} (h : Sized s N) (hnd : nd.NoChild) : Sized { s with nodes := s.nodes ++ [nd] } (N + 1) := by
  have h1 := h.mono (Nat.le_succ N)
  refine ⟨by simpa using h.nodes, h1.aliases, h1.ctx, fun x hx => ?_⟩
  rcases List.mem_append.mp hx with hx | hx
  · exact h1.items x hx
  · rw [List.mem_singleton] at hx
    subst hx
    unfold Node.NoChild at hnd
    split at hnd
    · trivial
    · rw [hnd]; exact Nat.zero_le _
    · rw [hnd]; exact Nat.zero_le _

theorem register_length {index : Nat} {mark : Mark} {anchor : Option Text} {as as' : List AliasData} (h : registerAnchor index mark anchor as = .ok as') :
    as'.length ≤ as.length + 1 := by
  unfold registerAnchor at h
  split at h
  · cases h; omega
  · split at h
    · cases h
    · cases h; simp

theorem pairs_length {pairs pairs' : List (Nat × Nat)} {index : Nat} (h : addToPairs roomy pairs index = .ok pairs') : pairs'.length ≤ pairs.length + 1 := by
  unfold addToPairs at h
  split at h
  · rename_i hg
    split at h
    · cases h
      simp
    · split at h
      · cases h; simp
      · cases h
  · split at h
    · cases h; simp
    · cases h

theorem Sized.nodeAdd {s s' : CState} {N index : Nat} (h : Sized s N) (hr : nodeAdd roomy index s = .ok s') : Sized s' (N + 1) ∧ s'.nodes.length = s.nodes.length ∧ s'.ctx = s.ctx := by
  have h1 := h.mono (Nat.le_succ N)
  unfold LibYaml.nodeAdd at hr
  split at hr
  · cases hr
    exact ⟨h1, rfl, rfl⟩
  · rename_i c cs hc
    split at hr
    · cases hr
    · rename_i parent hg
      split at hr
      · rename_i parent' hadd
        cases hr
        refine ⟨⟨by simpa using h1.nodes, h1.aliases, h1.ctx, fun x hx => ?_⟩, by simp, rfl⟩
        rcases List.mem_or_eq_of_mem_set hx with hx | rfl
        · exact h1.items x hx
        · have hi := h.items parent (List.mem_of_getElem? hg)
          unfold addChild at hadd
          split at hadd
          · rename_i items st hd
            rw [hd] at hi
            split at hadd
            · cases hadd
              simpa using hi
            · cases hadd
          · rename_i pairs st hd
            rw [hd] at hi
            split at hadd
            · rename_i pairs' hp
              cases hadd
              have := pairs_length hp
              simp only [] at hi ⊢
              omega
            · cases hadd
          · cases hadd
      · cases hr

/-- Registering the anchor of a new node and adding the node to its parent. -/
theorem hw_enter {s : CState} {d : Doc} {hs : HLoad} {b x : Blocks} {N index : Nat} {anchor : Option Text} {nd : Node} {p : Ptr} {opens : Bool}
    {Q : Bool × HLoad → Heap → Prop} {P : HLoad → Heap → Prop} (ha : LoadAt { s with nodes := s.nodes ++ [nd] } d hs b) (e : Ext A base (x ++ (b ++ bs)) h)
    (hN : Sized s N) (hnd : nd.NoChild) (htop : index = s.nodes.length + 1) (hx : StrAt (anchor.map textBytes) p x) (hanchor : ∀ a ∈ anchor, AnchorText a)
    (hub : addNode roomy nd anchor opens s ≠ .error .ub)
    (h0 : ∀ h' s' hs' b', LoadAt s' d hs' b' → Ext A base (b' ++ bs) h' → (A → stackLimit HNode (N + 1) ∨ ∃ err, addNode roomy nd anchor opens s = .error err) →
      Q (false, hs') h')
    (h1 : ∀ h' s' hs' b', s'.ctx = s.ctx → addNode roomy nd anchor opens s = (if opens then .ok { s' with ctx := index :: s'.ctx } else .ok s') →
      LoadAt s' d hs' b' → Ext A base (b' ++ bs) h' → P hs' h') :
    hw (hRegister index p hs) (fun r g => (r.1 = false → Q (false, r.2) g) ∧ (r.1 = true → hw (hNodeAdd index r.2)
      (fun r g => (r.1 = false → Q (false, r.2) g) ∧ (r.1 = true → P r.2 g)) g)) h := by
  have hpush := hN.push hnd
  refine hw_register (N := N + 1) (mark := nd.start) e ha hpush hx hanchor (fun g e4 hA => ?_) (fun g as' hs' b' has hd hc hl e4 => ?_)
  · refine ⟨fun _ => h0 g _ _ _ ha e4 (fun a => (hA a).imp_right ?_), fun hh => by cases hh⟩
    rintro ⟨err, herr⟩
    refine ⟨err, ?_⟩
    unfold addNode
    rw [htop] at herr
    rw [if_pos (by rfl)]
    simp only [] at herr ⊢
    rw [herr]
  · refine ⟨fun hh => (by cases hh), fun _ => ?_⟩
    have hval : addNode roomy nd anchor opens s = match nodeAdd roomy index { s with nodes := s.nodes ++ [nd], aliases := as' } with
        | .error e => .error e
        | .ok s' => if opens then .ok { s' with ctx := index :: s'.ctx } else .ok s' := by
      unfold addNode
      simp only [] at has
      rw [htop] at has ⊢
      rw [if_pos (by rfl)]
      simp only [has]
      rfl
    have hsz : Sized { s with nodes := s.nodes ++ [nd], aliases := as' } (N + 1) :=
      ⟨hpush.nodes, Nat.le_trans (register_length has) (Nat.succ_le_succ hN.aliases), hpush.ctx, hpush.items⟩
    refine hw_nodeAdd e4 hl hsz (fun hh => ?_) (fun g b' j1 j2 j3 => ⟨fun _ => h0 g _ hs' b' j1 j2 (fun a => .inl (j3 a)), fun hh => by cases hh⟩)
      (fun g s' b' j1 j2 j3 => ⟨fun hh => by (cases hh), fun _ => h1 g s' hs' b' ?_ ?_ j2 j3⟩)
    · have hh : nodeAdd roomy index { s with nodes := s.nodes ++ [nd], aliases := as' } = .error .ub := hh
      rw [hh] at hval
      exact hub hval
    · exact (hsz.nodeAdd j1).2.2
    · have j1 : nodeAdd roomy index { s with nodes := s.nodes ++ [nd], aliases := as' } = .ok s' := j1
      rw [hval, j1]

theorem hw_loadScalar {s : CState} {d : Doc} {hs : HLoad} {b x y z : Blocks} {N : Nat} {anchor tag : Option Text} {v : Text} {st : ScalarStyle} {start stop : Mark}
    {p q r : Ptr} {Q : Bool × HLoad → Heap → Prop} (e : Ext A base (x ++ (y ++ (z ++ (b ++ bs)))) h) (ha : LoadAt s d hs b) (hN : Sized s N)
    (hx : StrAt (anchor.map textBytes) p x) (hy : StrAt (tag.map textBytes) q y) (hz : StrAt (some (textBytes v)) r z)
    (hanchor : ∀ a ∈ anchor, AnchorText a) (htag : ∀ a ∈ tag, CText a)
    (hub : addNode roomy { tag := tagOr strTag tag, data := .scalar v st, start, stop } anchor false s ≠ .error .ub)
    (h0 : ∀ h' s' hs' b', LoadAt s' d hs' b' → Ext A base (b' ++ bs) h' →
      (A → stackLimit HNode (N + 1) ∨ ∃ err, addNode roomy { tag := tagOr strTag tag, data := .scalar v st, start, stop } anchor false s = .error err) → Q (false, hs') h')
    (h1 : ∀ h' s' hs' b', addNode roomy { tag := tagOr strTag tag, data := .scalar v st, start, stop } anchor false s = .ok s' → LoadAt s' d hs' b' →
      Ext A base (b' ++ bs) h' → Q (true, hs') h') :
    hw (hLoadScalar p q r (textBytes v).length st hs) Q h := by
  have ha' := ha
  obtain ⟨b1, b2, b3, k1, k2, k3, rfl⟩ := ha
  have hlen := docAt_length k1
  have giveUp : ∀ {q' : Ptr} {t : Option (List UInt8)} {y' : Blocks} {g : Heap} {hs' : HLoad} {s' : CState} {b' : Blocks}, StrAt t q' y' → LoadAt s' d hs' b' →
      Ext A base (x ++ (y' ++ (z ++ (b' ++ bs)))) g → (A → stackLimit HNode (N + 1)) →
      hw (do free q'; free p; free r; return (false, hs')) Q g := by
    intro q' t y' g hs' s' b' hy' hl e2 hA
    rw [hw_bind]
    refine hw_free_str e2 hy' (bs' := x ++ (z ++ (b' ++ bs))) (by blocks) (fun g e3 => ?_)
    rw [hw_bind]
    refine hw_free_str e3 hx (List.Perm.refl _) (fun g e3 => ?_)
    rw [hw_bind]
    refine hw_free_str e3 hz (List.Perm.refl _) (fun g e3 => ?_)
    exact h0 g s' hs' b' hl e3 (fun x => .inl (hA x))
  unfold hLoadScalar
  rw [hw_ite]
  split
  · rename_i hl
    exact giveUp hy ha' e (fun _ => limit_hlimit (by simpa using hl) (by rw [hlen]; exact Nat.le_succ_of_le hN.nodes))
  rw [hw_bind]
  refine hw_tag (bs := x ++ (z ++ (b1 ++ (b2 ++ b3) ++ bs))) (e.perm (by blocks)) hy htag (by decide) (fun g e2 hA => ?_) (fun g q' y' hy' e2 => ?_)
  · dsimp only
    rw [if_pos (by rfl)]
    exact giveUp (t := none) (y' := []) ⟨rfl, rfl⟩ ha' (e2.perm (by blocks)) (fun a => absurd a hA)
  dsimp only
  rw [if_neg (by simp), hw_bind]
  refine hw_pushNode (nd := { tag := tagOr strTag tag, data := .scalar v st, start, stop }) (x := y' ++ z) (bs := x ++ (b2 ++ (b3 ++ bs))) k1
    ⟨q', r, y', z, rfl, hy', hz, rfl⟩ (e2.perm (by blocks)) (fun g e3 hA => ?_) (fun g nodes b1' htop hdoc e3 => ?_)
  · dsimp only
    rw [if_pos (by rfl)]
    exact giveUp hy' ha' (e3.perm (by blocks)) (fun a => limit_mono (hA a) (Nat.le_succ_of_le hN.nodes) (Nat.le_refl _))
  dsimp only
  rw [if_neg (by simp), hw_bind]
  refine hw_mono (hw_enter (hs := { hs with doc := { hs.doc with nodes } }) (b := b1' ++ (b2 ++ b3)) (bs := bs) (opens := false)
    ⟨b1', b2, b3, hdoc, k2, k3, rfl⟩ (e3.perm (by blocks)) hN trivial htop hx hanchor hub h0 (fun g s' hs' b' _ hv hl e4 => h1 g s' hs' b' hv hl e4))
    (fun r g hr => ?_)
  obtain ⟨ok, hs'⟩ := r
  cases ok with
  | false => exact hr.1 rfl
  | true =>
    dsimp only
    rw [if_neg (by simp)]
    refine hw_mono (hr.2 rfl) (fun r g hr => ?_)
    obtain ⟨ok, hs'⟩ := r
    cases ok with
    | false => exact hr.1 rfl
    | true => exact hr.2 rfl

theorem ctxAt_push {ctx : List Nat} {a n c : Nat} : CtxAt (c :: ctx) ⟨some a, ctx.length + 1⟩ [(a, stkObj (ctx.reverse.map Int.ofNat ++ [(c : Int)]) n)] :=
  ⟨a, n, rfl, .inl (by simp), by simp⟩

theorem hw_loadColl {α : Type} [Cell α] {dflt : Text} {make : Ptr → HStk → HNode} {s : CState} {d : Doc} {hs : HLoad} {b x y : Blocks} {N : Nat}
    {anchor tag : Option Text} {nd : Node} {p q : Ptr} {Q : Bool × HLoad → Heap → Prop} (e : Ext A base (x ++ (y ++ (b ++ bs))) h) (ha : LoadAt s d hs b) (hN : Sized s N)
    (hx : StrAt (anchor.map textBytes) p x) (hy : StrAt (tag.map textBytes) q y) (hanchor : ∀ a ∈ anchor, AnchorText a) (htag : ∀ a ∈ tag, CText a)
    (hd : literal dflt = textBytes dflt ++ [0])
    (hnode : ∀ p' x' a, StrAt (some (textBytes (tagOr dflt tag))) p' x' → NodeAt nd (make p' ⟨some a, 0⟩) (x' ++ [(a, stkObj ([] : List α) 16)])) (hnd : nd.NoChild)
    (hlost : ∀ a, Lost [(a, stkObj ([] : List α) 16)])
    (hub : addNode roomy nd anchor true s ≠ .error .ub)
    (h0 : ∀ h' s' hs' b' leak, LoadAt s' d hs' b' → Ext A base (b' ++ (leak ++ bs)) h' → Lost leak →
      (A → stackLimit HNode (N + 1) ∨ (leak = [] ∧ ∃ err, addNode roomy nd anchor true s = .error err)) → Q (false, hs') h')
    (h1 : ∀ h' s' hs' b', addNode roomy nd anchor true s = .ok s' → LoadAt s' d hs' b' → Ext A base (b' ++ bs) h' → Q (true, hs') h') :
    hw (hLoadColl α dflt make p q hs) Q h := by
  have ha' := ha
  obtain ⟨b1, b2, b3, k1, k2, k3, rfl⟩ := ha
  have hlen := docAt_length k1
  have giveUp : ∀ {q' : Ptr} {t : Option (List UInt8)} {y' leak : Blocks} {g : Heap} {hs' : HLoad} {s' : CState} {b' : Blocks}, StrAt t q' y' → LoadAt s' d hs' b' →
      Ext A base (x ++ (y' ++ (b' ++ (leak ++ bs)))) g → Lost leak → (A → stackLimit HNode (N + 1)) →
      hw (do free q'; free p; return (false, hs')) Q g := by
    intro q' t y' leak g hs' s' b' hy' hl e2 hlk hA
    rw [hw_bind]
    refine hw_free_str e2 hy' (bs' := x ++ (b' ++ (leak ++ bs))) (by blocks) (fun g e3 => ?_)
    rw [hw_bind]
    refine hw_free_str e3 hx (List.Perm.refl _) (fun g e3 => ?_)
    exact h0 g s' hs' b' leak hl e3 hlk (fun x => .inl (hA x))
  unfold hLoadColl
  rw [hw_ite]
  split
  · rename_i hl
    exact giveUp (leak := []) hy ha' e (.inl rfl) (fun _ => limit_hlimit (by simpa using hl) (by rw [hlen]; exact Nat.le_succ_of_le hN.nodes))
  rw [hw_bind]
  refine hw_tag (bs := x ++ (b1 ++ (b2 ++ b3) ++ bs)) (e.perm (by blocks)) hy htag hd (fun g e2 hA => ?_) (fun g q' y' hy' e2 => ?_)
  · dsimp only
    rw [if_pos (by rfl)]
    exact giveUp (t := none) (y' := []) (leak := []) ⟨rfl, rfl⟩ ha' (e2.perm (by blocks)) (.inl rfl) (fun a => absurd a hA)
  dsimp only
  rw [if_neg (by simp), hw_bind]
  refine hw_init e2 (fun g e3 hA => ?_) (fun g a e3 => ?_)
  · dsimp only
    rw [if_pos (by rfl)]
    exact giveUp (leak := []) hy' ha' (e3.perm (by blocks)) (.inl rfl) (fun a => absurd a hA)
  dsimp only
  rw [if_neg (by simp), hw_bind]
  refine hw_pushNode (nd := nd) (x := y' ++ [(a, stkObj ([] : List α) 16)]) (bs := x ++ (b2 ++ (b3 ++ bs))) k1 (hnode q' y' a hy') (e3.perm (by blocks)) (fun g e4 hA => ?_)
    (fun g nodes b1' htop hdoc e4 => ?_)
  · dsimp only
    rw [if_pos (by rfl)]
    exact giveUp (leak := [(a, stkObj ([] : List α) 16)]) hy' ha' (e4.perm (by blocks)) (hlost a) (fun a => limit_mono (hA a) (Nat.le_succ_of_le hN.nodes) (Nat.le_refl _))
  dsimp only
  rw [if_neg (by simp), hw_bind]
  refine hw_mono (hw_enter (hs := { hs with doc := { hs.doc with nodes } }) (b := b1' ++ (b2 ++ b3)) (bs := bs) (opens := true)
    (P := fun hs' g => ∃ s' b', s'.ctx = s.ctx ∧ addNode roomy nd anchor true s = .ok { s' with ctx := nodes.top :: s'.ctx } ∧ LoadAt s' d hs' b' ∧ Ext A base (b' ++ bs) g)
    ⟨b1', b2, b3, hdoc, k2, k3, rfl⟩ (e4.perm (by blocks)) hN hnd htop hx hanchor hub
    (fun g s' hs' b' j1 j2 j3 => h0 g s' hs' b' [] j1 j2 (.inl rfl) (fun a => (j3 a).imp_right fun x => ⟨rfl, x⟩))
    (fun g s' hs' b' j1 j2 j3 j4 => ⟨s', b', j1, j2, j3, j4⟩)) (fun r g hr => ?_)
  obtain ⟨ok, hs'⟩ := r
  cases ok with
  | false => exact hr.1 rfl
  | true =>
    dsimp only
    rw [if_neg (by simp), hw_bind]
    refine hw_mono (hr.2 rfl) (fun r g hr => ?_)
    obtain ⟨ok, hs'⟩ := r
    cases ok with
    | false => exact hr.1 rfl
    | true =>
      obtain ⟨s', b', hctx, hval, hload, e5⟩ := hr.2 rfl
      dsimp only at hload ⊢
      rw [if_neg (by simp), hw_ite]
      have hload' := hload
      obtain ⟨c1, c2, c3, j1, j2, ⟨ca, cn, hc, hcne, rfl⟩, rfl⟩ := hload
      have hmap : s'.ctx.length = (s'.ctx.reverse.map Int.ofNat).length := by simp
      have hcN : s'.ctx.length ≤ N + 1 := by
        rw [hctx]
        exact Nat.le_succ_of_le hN.ctx
      split
      · rename_i hl
        exact h0 g s' hs' _ [] hload' e5 (.inl rfl) (fun _ => .inl (limit_hlimit (by simpa using hl) (by rw [hc]; exact hcN)))
      · rw [hw_bind, hc, hmap]
        refine hw_push (n := cn) (bs' := c1 ++ (c2 ++ bs)) e5 (by blocks) (fun g e6 hA => ?_) (fun g ca' cn' e6 => ?_) (by simpa using hcne)
        · rw [← hmap]
          refine h0 g s' { hs' with ctx := ⟨some ca, s'.ctx.length⟩ } _ [] ⟨c1, c2, _, j1, j2, ⟨ca, cn, rfl, hcne, rfl⟩, rfl⟩ e6 (.inl rfl)
            (fun a => .inl (limit_mono (hA a) (by rw [← hmap]; exact hcN) (by decide)))
        · rw [← hmap]
          refine h1 g _ { hs' with ctx := ⟨some ca', s'.ctx.length + 1⟩ } _ hval ⟨c1, c2, _, j1, j2, ctxAt_push (n := cn'), rfl⟩ (e6.perm (by blocks))

theorem hw_close {s : CState} {d : Doc} {hs : HLoad} {b : Blocks} {isKind : NodeData → Bool} {isKind' : HNode → Bool} {stop : Mark}
    {Q : Bool × HLoad → Heap → Prop} (e : Ext A base (b ++ bs) h) (ha : LoadAt s d hs b) (hk : ∀ nd hn x, NodeAt nd hn x → isKind' hn = isKind nd.data)
    (hub : closeNode isKind stop s ≠ .error .ub)
    (h1 : ∀ h' s' hs' b', closeNode isKind stop s = .ok s' → LoadAt s' d hs' b' → Ext A base (b' ++ bs) h' → Q (true, hs') h') :
    hw (hClose isKind' hs) Q h := by
  obtain ⟨b1, b2, b3, k1, k2, k3, rfl⟩ := ha
  obtain ⟨ca, cn, hctx, hcne, rfl⟩ := k3
  unfold closeNode at hub h1
  cases hc : s.ctx with
  | nil =>
    rw [hc] at hub
    exact absurd rfl hub
  | cons c cs =>
  rw [hc] at hub h1 hctx
  simp only [] at hub h1
  cases hg : s.nodes[c - 1]? with
  | none =>
    rw [hg] at hub
    exact absurd rfl hub
  | some nd =>
  rw [hg] at hub h1
  simp only [] at hub h1
  by_cases hkind : isKind nd.data = true
  case neg =>
    rw [if_neg hkind] at hub
    exact absurd rfl hub
  rw [if_pos hkind] at h1
  obtain ⟨a, n, g1, hn, g2, x, rest, hnodes, hlen, hnode, hperm, hset⟩ := docAt_node k1 hg
  unfold hClose
  rw [hw_bind]
  refine hw_assertH (by rw [hctx]; simp) ?_
  rw [hw_bind, hctx]
  have hvs : s.ctx.reverse.map Int.ofNat = cs.reverse.map Int.ofNat ++ [(c : Int)] := by rw [hc]; simp
  refine hw_get (vs := s.ctx.reverse.map Int.ofNat) (n := cn) (v := (c : Int)) e (by simp) (by rw [hc]; simp) ?_
  rw [hw_bind, hnodes]
  have hmem : (a, stkObj (g1 ++ hn :: g2) n) ∈ b1 := hperm.mem_iff.mpr List.mem_cons_self
  refine hw_get (vs := g1 ++ hn :: g2) (n := n) (v := hn) e (by simp [hmem]) (by rw [Int.toNat_natCast, hlen]; simp) ?_
  rw [hw_bind]
  refine hw_assertH (by rw [hk nd hn x hnode]; exact hkind) ?_
  rw [hw_bind]
  have hl : (c :: cs).length = (cs.reverse.map Int.ofNat).length + 1 := by simp
  rw [hl]
  rw [hvs] at e
  refine hw_pop (n := cn) (v := (c : Int)) (bs' := b1 ++ (b2 ++ bs)) e (by blocks) (fun g e2 => ?_)
  rw [hw_pure]
  obtain ⟨b', j1, j2⟩ := hset { nd with stop := stop } hn x hnode
  refine h1 g _ _ (b' ++ (b2 ++ [(ca, stkObj (cs.reverse.map Int.ofNat) (cn + 1))])) rfl ⟨b', b2, _, j1, k2, ⟨ca, cn + 1, by simp, .inr (by simp), rfl⟩, rfl⟩ (e2.perm ?_)
  rw [List.perm_iff_count] at j2 hperm ⊢
  intro z
  have := j2 z
  have := hperm z
  simp only [List.count_append, List.count_cons, List.count_nil] at *
  omega

theorem literal_seq : literal seqTag = textBytes seqTag ++ [0] := by decide
theorem literal_map : literal mapTag = textBytes mapTag ++ [0] := by decide

theorem sequence_at {t : Option Text} {st : CollStyle} {start stop : Mark} (p : Ptr) (x : Blocks) (a : Nat) (hs : StrAt (some (textBytes (tagOr seqTag t))) p x) :
    NodeAt { tag := tagOr seqTag t, data := .sequence [] st, start, stop } (.sequence p ⟨some a, 0⟩ st) (x ++ [(a, stkObj ([] : List Int) 16)]) :=
  ⟨p, a, 16, x, rfl, hs, .inr (by simp), rfl⟩

theorem mapping_at {t : Option Text} {st : CollStyle} {start stop : Mark} (p : Ptr) (x : Blocks) (a : Nat) (hs : StrAt (some (textBytes (tagOr mapTag t))) p x) :
    NodeAt { tag := tagOr mapTag t, data := .mapping [] st, start, stop } (.mapping p ⟨some a, 0⟩ st) (x ++ [(a, stkObj ([] : List (Int × Int)) 16)]) :=
  ⟨p, a, 16, x, rfl, hs, .inr (by simp), rfl⟩

/-- Every event that the composer gets. -/
theorem hw_composeEvent {ev : Event} {he : HEvent} {s : CState} {d : Doc} {hs : HLoad} {b x : Blocks} {N : Nat} {Q : Bool × HLoad → Heap → Prop}
    (e : Ext A base (x ++ (b ++ bs)) h) (ha : LoadAt s d hs b) (hN : Sized s N) (hx : EventAt ev.data he x) (hstr : Stringy ev.data)
    (hub : composeEvent roomy ev s ≠ .error .ub)
    (h0 : ∀ h' s' hs' b' leak, LoadAt s' d hs' b' → Ext A base (b' ++ (leak ++ bs)) h' → Lost leak →
      (A → stackLimit HNode (N + 1) ∨ (leak = [] ∧ ∃ err, composeEvent roomy ev s = .error err)) → Q (false, hs') h')
    (h1 : ∀ h' s' hs' b', composeEvent roomy ev s = .ok s' → LoadAt s' d hs' b' → Ext A base (b' ++ bs) h' → Q (true, hs') h') :
    hw (hComposeEvent he hs) Q h := by
  obtain ⟨data, start, stop⟩ := ev
  have hlimit : stackLimit HNode N → stackLimit HNode (N + 1) := fun h => limit_mono h (Nat.le_succ N) (Nat.le_refl _)
  cases data with
  | streamStart en => exact absurd rfl hub
  | streamEnd => exact absurd rfl hub
  | documentStart v ts i => exact absurd rfl hub
  | documentEnd i => exact absurd rfl hub
  | «alias» a =>
    obtain ⟨p, rfl, hx⟩ := hx
    exact hw_loadAlias (bs := bs) (b := b) e ha hN hx hstr hub
      (fun g b' j1 j2 j3 => h0 g s hs b' [] j1 j2 (.inl rfl) (fun a => (j3 a).imp hlimit fun x => ⟨rfl, x⟩))
      (fun g s' b' j1 j2 j3 => h1 g s' hs b' j1 j2 j3)
  | scalar a t v pi qi st =>
    obtain ⟨p, q, r, x, y, z, rfl, hx, hy, hz, rfl⟩ := hx
    exact hw_loadScalar (bs := bs) (b := b) (e.perm (by blocks)) ha hN hx hy hz hstr.1 hstr.2 hub
      (fun g s' hs' b' j1 j2 j3 => h0 g s' hs' b' [] j1 j2 (.inl rfl) (fun a => (j3 a).imp_right fun x => ⟨rfl, x⟩)) h1
  | sequenceStart a t i st =>
    obtain ⟨p, q, x, y, rfl, hx, hy, rfl⟩ := hx
    show hw (hLoadColl Int seqTag (fun t k => .sequence t k st) p q hs) Q h
    exact hw_loadColl (α := Int) (nd := { tag := tagOr seqTag t, data := .sequence [] st, start, stop }) (bs := bs) (b := b) (e.perm (by blocks)) ha hN hx hy hstr.1 hstr.2
      literal_seq sequence_at rfl (fun a => .inr (.inl ⟨a, rfl⟩)) hub h0 h1
  | mappingStart a t i st =>
    obtain ⟨p, q, x, y, rfl, hx, hy, rfl⟩ := hx
    show hw (hLoadColl (Int × Int) mapTag (fun t k => .mapping t k st) p q hs) Q h
    exact hw_loadColl (α := Int × Int) (nd := { tag := tagOr mapTag t, data := .mapping [] st, start, stop }) (bs := bs) (b := b) (e.perm (by blocks)) ha hN hx hy hstr.1 hstr.2
      literal_map mapping_at rfl (fun a => .inr (.inr (.inl ⟨a, rfl⟩))) hub h0 h1
  | sequenceEnd =>
    obtain ⟨rfl, rfl⟩ := hx
    refine hw_close (bs := bs) (b := b) e ha (fun nd hn x hnode => ?_) hub h1
    unfold NodeAt at hnode
    split at hnode
    · rename_i hd
      obtain ⟨_, _, _, _, rfl, _⟩ := hnode
      rw [hd]; rfl
    · rename_i hd
      obtain ⟨_, _, _, _, rfl, _⟩ := hnode
      rw [hd]; rfl
    · rename_i hd
      obtain ⟨_, _, _, _, rfl, _⟩ := hnode
      rw [hd]; rfl
  | mappingEnd =>
    obtain ⟨rfl, rfl⟩ := hx
    refine hw_close (bs := bs) (b := b) e ha (fun nd hn x hnode => ?_) hub h1
    unfold NodeAt at hnode
    split at hnode
    · rename_i hd
      obtain ⟨_, _, _, _, rfl, _⟩ := hnode
      rw [hd]; rfl
    · rename_i hd
      obtain ⟨_, _, _, _, rfl, _⟩ := hnode
      rw [hd]; rfl
    · rename_i hd
      obtain ⟨_, _, _, _, rfl, _⟩ := hnode
      rw [hd]; rfl

theorem Sized.addNode {s s' : CState} {N : Nat} {nd : Node} {anchor : Option Text} {opens : Bool} (h : Sized s N) (hnd : nd.NoChild)
    (hr : addNode roomy nd anchor opens s = .ok s') : Sized s' (N + 2) := by
  unfold LibYaml.addNode at hr
  split at hr
  · dsimp only at hr
    split at hr
    · cases hr
    · rename_i as' has
      split at hr
      · cases hr
      · rename_i s2 hadd
        have hpush := h.push hnd
        have hsz : Sized { s with nodes := s.nodes ++ [nd], aliases := as' } (N + 1) :=
          ⟨hpush.nodes, Nat.le_trans (register_length has) (Nat.succ_le_succ h.aliases), hpush.ctx, hpush.items⟩
        obtain ⟨k1, k2, k3⟩ := hsz.nodeAdd hadd
        split at hr
        · split at hr
          · cases hr
            refine ⟨k1.nodes, k1.aliases, ?_, k1.items⟩
            rw [List.length_cons, k3]
            exact Nat.succ_le_succ (Nat.le_succ_of_le h.ctx)
          · cases hr
        · cases hr
          exact k1
  · cases hr

theorem Sized.event {ev : Event} {s s' : CState} {N : Nat} (h : Sized s N) (hr : composeEvent roomy ev s = .ok s') : Sized s' (N + 2) := by
  have close : ∀ {isKind stop}, closeNode isKind stop s = .ok s' → Sized s' (N + 2) := by
    intro isKind stop hr
    unfold closeNode at hr
    split at hr
    · cases hr
    · rename_i c cs hc
      split at hr
      · cases hr
      · rename_i nd hg
        split at hr
        · cases hr
          have h1 := h.mono (Nat.le_add_right N 2)
          refine ⟨by simpa using h1.nodes, h1.aliases, ?_, fun x hx => ?_⟩
          · have := h1.ctx
            rw [hc, List.length_cons] at this
            show cs.length ≤ _
            omega
          · rcases List.mem_or_eq_of_mem_set hx with hx | rfl
            · exact h1.items x hx
            · exact h1.items nd (List.mem_of_getElem? hg)
        · cases hr
  obtain ⟨data, start, stop⟩ := ev
  cases data with
  | streamStart en => cases hr
  | streamEnd => cases hr
  | documentStart v ts i => cases hr
  | documentEnd i => cases hr
  | «alias» a =>
    have hr : loadAlias roomy a start s = .ok s' := hr
    unfold loadAlias at hr
    split at hr
    · exact (h.nodeAdd hr).1.mono (Nat.le_succ _)
    · cases hr
  | scalar a t v pi qi st => exact h.addNode (nd := { tag := tagOr strTag t, data := .scalar v st, start, stop }) trivial hr
  | sequenceStart a t i st => exact h.addNode (nd := { tag := tagOr seqTag t, data := .sequence [] st, start, stop }) rfl hr
  | mappingStart a t i st => exact h.addNode (nd := { tag := tagOr mapTag t, data := .mapping [] st, start, stop }) rfl hr
  | sequenceEnd => exact close hr
  | mappingEnd => exact close hr

/-! ### Whole documents -/

theorem loadAt_end {s : CState} {d : Doc} {hs : HLoad} {b : Blocks} {i : Bool} (ha : LoadAt s d hs b) :
    LoadAt s { d with endImplicit := i } { hs with doc := { hs.doc with endImplicit := i } } b := by
  obtain ⟨b1, b2, b3, ⟨a, n, hns, c1, c2, c3, k1, k2, k3, k4, k5, k6, k7, k8⟩, j2, j3, rfl⟩ := ha
  exact ⟨b1, b2, b3, ⟨a, n, hns, c1, c2, c3, k1, k2, k3, k4, k5, rfl, k7, k8⟩, j2, j3, rfl⟩

theorem hw_loadNodes {es : Outcomes} {s : CState} {d : Doc} {hs : HLoad} {b : Blocks} {N : Nat} {Q : Bool × HLoad × Outcomes → Heap → Prop}
    (e : Ext A base (b ++ bs) h) (ha : LoadAt s d hs b) (hN : Sized s N) (hl : Legal (.inside s) es) (hstr : ∀ ev, some ev ∈ es → Stringy ev.data)
    (h0 : ∀ h' s' hs' b' leak es', LoadAt s' d hs' b' → Ext A base (b' ++ (leak ++ bs)) h' → Lost leak →
      (A → stackLimit HNode (N + 2 * es.length) ∨ (leak = [] ∧ composed es s = none)) → Q (false, hs', es') h')
    (h1 : ∀ h' s' hs' b' i m es', composed es s = some (s', i, m, es') → Legal .between es' → es' <:+ es → LoadAt s' { d with endImplicit := i } hs' b' →
      Ext A base (b' ++ bs) h' → Q (true, hs', es') h') : hw (hLoadNodes es hs) Q h := by
  induction es generalizing s hs b N h with
  | nil => exact h0 h s hs b [] [] ha e (.inl rfl) (fun _ => .inr ⟨rfl, rfl⟩)
  | cons ev es ih =>
    cases ev with
    | none => exact h0 h s hs b [] es ha e (.inl rfl) (fun _ => .inr ⟨rfl, rfl⟩)
    | some ev =>
    unfold hLoadNodes
    rw [hw_bind]
    refine hw_giveEvent e fun g he x hev e2 => ?_
    have hs' := hstr ev List.mem_cons_self
    have hstr' : ∀ ev, some ev ∈ es → Stringy ev.data := fun ev h => hstr ev (List.mem_cons_of_mem _ h)
    have go : (∀ i, ev.data ≠ .documentEnd i) → hw (do
        let (ok, s) ← hComposeEvent he hs
        if !ok then return (false, s, es) else hLoadNodes es s) Q g := by
      intro hne
      have hl' : match composeEvent roomy ev s with
          | .ok s => Legal (.inside s) es
          | .error err => err ≠ .ub := by
        unfold Legal at hl
        split at hl
        · rename_i heq
          exact absurd heq (hne _)
        · exact hl
      have hc : composed (some ev :: es) s = match composeEvent roomy ev s with
          | .ok s => composed es s
          | .error _ => none := by
        show (match ev.data with
          | .documentEnd i => some (s, i, ev.stop, es)
          | _ => match composeEvent roomy ev s with
            | .ok s => composed es s
            | .error _ => none) = _
        split
        · rename_i heq
          exact absurd heq (hne _)
        · rfl
      rw [hw_bind]
      refine hw_composeEvent (bs := bs) (b := b) e2 ha hN hev hs' (fun hub => ?_) (fun g s' hs' b' leak j1 j2 j3 j4 => ?_) (fun g s' hs' b' j1 j2 j3 => ?_)
      · rw [hub] at hl'
        exact hl' rfl
      · dsimp only
        rw [if_pos (by rfl)]
        refine h0 g s' hs' b' leak es j1 j2 j3 (fun a => (j4 a).imp (fun k => limit_mono k ?_ (Nat.le_refl _)) (fun k => ⟨k.1, ?_⟩))
        · rw [List.length_cons]; omega
        · obtain ⟨_, err, herr⟩ := k
          rw [hc, herr]
      · dsimp only
        rw [if_neg (by simp)]
        rw [j1] at hl' hc
        refine ih (N := N + 2) j3 j2 (hN.event j1) hl' hstr' (fun g s' hs' b' leak es' m1 m2 m3 m4 => ?_) (fun g s' hs' b' i mk es' m1 m2 m3 m4 m5 => ?_)
        · refine h0 g s' hs' b' leak es' m1 m2 m3 (fun a => (m4 a).imp (fun k => limit_mono k ?_ (Nat.le_refl _)) (fun k => ⟨k.1, hc.trans k.2⟩))
          rw [List.length_cons]; omega
        · exact h1 g s' hs' b' i mk es' (hc.trans m1) m2 (m3.trans (List.suffix_cons _ _)) m4 m5
    obtain ⟨data, start, stop⟩ := ev
    cases data with
    | documentEnd i =>
      obtain ⟨rfl, rfl⟩ := hev
      exact h1 g s _ b i stop es rfl hl (List.suffix_cons _ _) (loadAt_end ha) e2
    | streamStart n =>
      obtain ⟨rfl, rfl⟩ := hev
      exact go (fun i hh => by cases hh)
    | streamEnd =>
      obtain ⟨rfl, rfl⟩ := hev
      exact go (fun i hh => by cases hh)
    | documentStart v ts i =>
      obtain ⟨p, q, x, y, rfl, _⟩ := hev
      exact go (fun i hh => by cases hh)
    | «alias» a =>
      obtain ⟨p, rfl, _⟩ := hev
      exact go (fun i hh => by cases hh)
    | scalar a t v pi qi st =>
      obtain ⟨p, q, r, x, y, z, rfl, _⟩ := hev
      exact go (fun i hh => by cases hh)
    | sequenceStart a t i st =>
      obtain ⟨p, q, x, y, rfl, _⟩ := hev
      exact go (fun i hh => by cases hh)
    | sequenceEnd =>
      obtain ⟨rfl, rfl⟩ := hev
      exact go (fun i hh => by cases hh)
    | mappingStart a t i st =>
      obtain ⟨p, q, x, y, rfl, _⟩ := hev
      exact go (fun i hh => by cases hh)
    | mappingEnd =>
      obtain ⟨rfl, rfl⟩ := hev
      exact go (fun i hh => by cases hh)

/-- The document and the aliases, without open collections. -/
def DoneAt (s : CState) (d : Doc) (hs : HLoad) (b : Blocks) : Prop :=
  ∃ b1 b2, DocAt { d with nodes := s.nodes } hs.doc b1 ∧ AliasAt s.aliases hs.aliases b2 ∧ b = b1 ++ b2

theorem hw_loadDocument {es : Outcomes} {v : Option Version} {ts : List TagDir} {i : Bool} {he : HEvent} {hs : HLoad} {b x : Blocks} {Q : Bool × HLoad × Outcomes → Heap → Prop}
    (e : Ext A base (x ++ (b ++ bs)) h) (hx : EventAt (.documentStart v ts i) he x) (ha : DoneAt {} Doc.empty hs b)
    (hl : Legal (.inside {}) es) (hstr : ∀ ev, some ev ∈ es → Stringy ev.data)
    (h0 : ∀ h' s' hs' b' leak es', DoneAt s' { Doc.empty with version := v, tags := ts, startImplicit := i } hs' b' → Ext A base (b' ++ (leak ++ bs)) h' → Lost leak →
      (A → stackLimit HNode (2 * es.length) ∨ (leak = [] ∧ composed es {} = none)) → Q (false, hs', es') h')
    (h1 : ∀ h' s' hs' b' j m es', composed es {} = some (s', j, m, es') → Legal .between es' → es' <:+ es →
      DoneAt s' { Doc.empty with version := v, tags := ts, startImplicit := i, endImplicit := j } hs' b' →
      Ext A base (b' ++ bs) h' → Q (true, hs', es') h') : hw (hLoadDocument he es hs) Q h := by
  obtain ⟨p, q, x, y, rfl, hx, hy, rfl⟩ := hx
  obtain ⟨b1, b2, ⟨a, n, hns, c1, c2, c3, k1, k2, ⟨k3, rfl⟩, k4, k5, k6, k7, rfl⟩, j2, rfl⟩ := ha
  obtain ⟨rfl, rfl⟩ := k2
  obtain ⟨k4, rfl⟩ : hs.doc.tags = {} ∧ c3 = [] := k4
  have hdoc : DocAt { Doc.empty with version := v, tags := ts, startImplicit := i, nodes := [] } { hs.doc with version := p, tags := q, startImplicit := i }
      ((a, stkObj ([] : List HNode) n) :: ([] ++ (x ++ y))) := ⟨a, n, [], [], x, y, k1, ⟨rfl, rfl⟩, hx, hy, rfl, k6, k7, rfl⟩
  unfold hLoadDocument
  simp only []
  rw [hw_bind]
  refine hw_init e (fun g e2 hA => ?_) (fun g ca e2 => ?_)
  · dsimp only
    rw [if_pos (by rfl)]
    exact h0 g {} { hs with doc := { hs.doc with version := p, tags := q, startImplicit := i } } _ [] es ⟨_, b2, hdoc, j2, rfl⟩ (e2.perm (by blocks)) (.inl rfl) (fun a => absurd a hA)
  dsimp only
  rw [if_neg (by simp), hw_bind]
  have e3 := e2.perm (bs' := ((a, stkObj ([] : List HNode) n) :: ([] ++ (x ++ y)) ++ (b2 ++ [(ca, stkObj ([] : List Int) 16)])) ++ bs) (by blocks)
  refine hw_loadNodes (s := {}) (d := { Doc.empty with version := v, tags := ts, startImplicit := i })
    (hs := { hs with doc := { hs.doc with version := p, tags := q, startImplicit := i }, ctx := ⟨some ca, 0⟩ }) (N := 0) e3 ⟨_, b2, _, hdoc, j2, ⟨ca, 16, rfl, .inr (by simp), rfl⟩, rfl⟩
    ⟨Nat.le_refl _, Nat.le_refl _, Nat.le_refl _, fun nd hnd => by cases hnd⟩ hl hstr
    (fun g s' hs' b' leak es' m1 m2 m3 m4 => ?_) (fun g s' hs' b' i mk es' m1 m2 m3 m4 m5 => ?_)
  · obtain ⟨d1, d2, d3, m5, m6, ⟨ca, cn, m7, m8, rfl⟩, rfl⟩ := m1
    dsimp only
    rw [m7, hw_bind]
    refine hw_free m2 (o := stkObj (s'.ctx.reverse.map Int.ofNat) cn) (bs' := (d1 ++ d2) ++ (leak ++ bs)) (by blocks) (fun g e4 => ?_)
    exact h0 g s' { hs' with ctx := {} } _ leak es' ⟨d1, d2, m5, m6, rfl⟩ e4 m3 (fun a => by
      have := m4 a
      rw [Nat.zero_add] at this
      exact this)
  · obtain ⟨d1, d2, d3, m6, m7, ⟨ca, cn, m8, m9, rfl⟩, rfl⟩ := m4
    dsimp only
    rw [m8, hw_bind]
    refine hw_free m5 (o := stkObj (s'.ctx.reverse.map Int.ofNat) cn) (bs' := (d1 ++ d2) ++ bs) (by blocks) (fun g e4 => ?_)
    exact h1 g s' { hs' with ctx := {} } _ i mk es' m1 m2 m3 ⟨d1, d2, m6, m7, rfl⟩ e4

theorem aliasCells_snoc {as : List AliasData} {d : AliasData} {vs : List (Ptr × Nat)} {b : Blocks} (k : AliasCells (as ++ [d]) vs b) :
    ∃ vs' p x b', vs = vs' ++ [(p, d.index)] ∧ AliasCells as vs' b' ∧ StrAt (some (textBytes d.anchor)) p x ∧ b = b' ++ x := by
  induction as generalizing vs b with
  | nil =>
    obtain ⟨p, vs', x, rest, rfl, _, h2, ⟨rfl, rfl⟩, rfl⟩ := k
    exact ⟨[], p, x, [], rfl, ⟨rfl, rfl⟩, h2, by simp⟩
  | cons c as ih =>
    obtain ⟨p, vs', x, rest, rfl, h1, h2, k, rfl⟩ := k
    obtain ⟨vs'', q, y, b', rfl, k', hy, rfl⟩ := ih k
    exact ⟨(p, c.index) :: vs'', q, y, x ++ b', rfl, ⟨p, vs'', x, b', rfl, h1, h2, k', rfl⟩, hy, by rw [List.append_assoc]⟩

theorem hw_freeAnchors {k : Nat} {as : List AliasData} {vs ws : List (Ptr × Nat)} {a n t : Nat} {c : Blocks} {Q : Unit → Heap → Prop} (hk : vs.length = k)
    (e : Ext A base ((a, stkObj (vs ++ ws) n) :: (c ++ bs)) h) (hc : AliasCells as vs c) (hQ : ∀ h', Ext A base ((a, stkObj (vs ++ ws) n) :: bs) h' → Q () h') :
    hw (freeAnchors k ⟨some a, t⟩) Q h := by
  induction k generalizing as vs ws c h with
  | zero =>
    have hl := aliasCells_length hc
    have : as = [] := List.eq_nil_of_length_eq_zero (by omega)
    subst this
    obtain ⟨rfl, rfl⟩ := hc
    exact hQ h e
  | succ k ih =>
    have hl := aliasCells_length hc
    rcases List.eq_nil_or_concat as with rfl | ⟨as', d, rfl⟩
    · rw [hk] at hl; cases hl
    rw [List.concat_eq_append] at hc
    obtain ⟨vs', p, x, b', rfl, hc', hs, rfl⟩ := aliasCells_snoc hc
    unfold freeAnchors
    rw [hw_bind]
    have hk' : vs'.length = k := by simpa using hk
    refine hw_get (v := (p, d.index)) e List.mem_cons_self (by rw [← hk']; simp) ?_
    rw [hw_bind]
    refine hw_free_str e hs (bs' := (a, stkObj (vs' ++ [(p, d.index)] ++ ws) n) :: (b' ++ bs)) (by blocks) (fun g e2 => ?_)
    rw [List.append_assoc] at e2 hQ
    exact ih hk' e2 hc' hQ

theorem hw_deleteAliases {as : List AliasData} {s : HStk} {b : Blocks} {Q : HStk → Heap → Prop} (e : Ext A base (b ++ bs) h) (ha : AliasAt as s b)
    (hQ : ∀ h', Ext A base bs h' → Q {} h') : hw (hDeleteAliases s) Q h := by
  obtain ⟨a, n, vs, c, rfl, hc, _, rfl⟩ := ha
  unfold hDeleteAliases
  rw [hw_bind]
  refine hw_freeAnchors (ws := []) rfl (by rw [List.append_nil]; exact e) hc (fun g e2 => ?_)
  rw [hw_bind]
  refine hw_free e2 (List.Perm.refl _) (fun g e3 => ?_)
  exact hQ g e3

theorem hw_loadError {s : CState} {d : Doc} {hs : HLoad} {p : HParser} {b : Blocks} {Q : Bool × HDoc × HParser → Heap → Prop} (e : Ext A base (b ++ bs) h)
    (ha : DoneAt s d hs b) (hQ : ∀ h', Ext A base bs h' → Q (false, {}, { p with aliases := {} }) h') : hw (hLoadError hs p) Q h := by
  obtain ⟨b1, b2, k1, k2, rfl⟩ := ha
  unfold hLoadError
  rw [hw_bind]
  refine hw_deleteAliases (bs := b1 ++ bs) (e.perm (by blocks)) k2 (fun g e2 => ?_)
  rw [hw_bind]
  exact hw_documentDelete e2 k1 (fun g e3 => hQ g e3)

theorem hw_deleteNothing {Q : HStk → Heap → Prop} (hQ : Q {} h) : hw (hDeleteAliases {}) Q h := hQ

theorem hw_loadError' {d : Doc} {hd : HDoc} {p : HParser} {b : Blocks} {Q : Bool × HDoc × HParser → Heap → Prop} (e : Ext A base (b ++ bs) h)
    (ha : DocAt d hd b) (hQ : ∀ h', Ext A base bs h' → Q (false, {}, { p with aliases := {} }) h') : hw (hLoadError { doc := hd } p) Q h := by
  unfold hLoadError
  rw [hw_bind]
  refine hw_deleteNothing ?_
  rw [hw_bind]
  exact hw_documentDelete e ha (fun g e3 => hQ g e3)

theorem hw_loadError_empty {p : HParser} {Q : Bool × HDoc × HParser → Heap → Prop} (hQ : Q (false, {}, { p with aliases := {} }) h) :
    hw (hLoadError {} p) Q h := by
  unfold hLoadError
  rw [hw_bind]
  refine hw_deleteNothing ?_
  exact hQ

theorem stringy_suffix {es es' : Outcomes} (h : es' <:+ es) (hstr : ∀ ev, some ev ∈ es → Stringy ev.data) : ∀ ev, some ev ∈ es' → Stringy ev.data :=
  fun ev hev => hstr ev (h.subset hev)

theorem hw_loadRest {hd : HDoc} {p : HParser} {b : Blocks} {Q : Bool × HDoc × HParser → Heap → Prop} (e : Ext A base (b ++ bs) h) (ha : DocAt Doc.empty hd b)
    (hs : p.started = true) (has : p.aliases = {}) (hl : p.ended = false → Legal .between p.outcomes) (hstr : ∀ ev, some ev ∈ p.outcomes → Stringy ev.data)
    (h0 : ∀ h' p' leak, p'.aliases = {} → Ext A base (leak ++ bs) h' → Lost leak →
      (A → stackLimit HNode (2 * p.outcomes.length) ∨ (leak = [] ∧ loadedDoc p = none)) → Q (false, {}, p') h')
    (h1 : ∀ h' d hd p' b', loadedDoc p = some d → Loadable p' → p'.started = true → p'.outcomes <:+ p.outcomes → DocAt d hd b' → Ext A base (b' ++ bs) h' → Q (true, hd, p') h') :
    hw (hLoadRest hd p) Q h := by
  obtain ⟨started, ended, outcomes, aliases⟩ := p
  subst hs has
  unfold hLoadRest
  rw [hw_ite]
  cases ended with
  | true =>
    rw [if_pos rfl]
    exact h1 h Doc.empty hd _ b rfl ⟨rfl, trivial⟩ rfl (List.suffix_refl _) ha e
  | false =>
  rw [if_neg (by simp), hw_bind]
  have hl := hl rfl
  have hfail : ∀ g es, Ext A base (b ++ bs) g → loadedDoc ⟨true, false, outcomes, {}⟩ = none → hw (hLoadError { doc := hd } { started := true, ended := false, outcomes := es, aliases := {} }) Q g := by
    intro g es e2 hnone
    exact hw_loadError' (bs := bs) e2 ha (fun g e3 => h0 g _ [] rfl e3 (.inl rfl) (fun _ => .inr ⟨rfl, hnone⟩))
  match outcomes, hl, hstr, h0, h1, hfail with
  | [], hl, hstr, h0, h1, hfail => exact hfail h [] e rfl
  | none :: es, hl, hstr, h0, h1, hfail => exact hfail h es e rfl
  | some ⟨data, start, stop⟩ :: es, hl, hstr, h0, h1, hfail =>
    unfold hParse
    rw [hw_bind]
    refine hw_giveEvent e fun g he x hev e2 => ?_
    rw [hw_pure]
    rcases hl with hl | ⟨⟨v, ts, i, hd'⟩, hl⟩
    · have hl : data = .streamEnd := hl
      subst hl
      obtain ⟨rfl, rfl⟩ := hev
      exact h1 g Doc.empty hd _ b rfl ⟨rfl, trivial⟩ rfl (List.suffix_cons _ _) ha e2
    · have hd' : data = .documentStart v ts i := hd'
      subst hd'
      have hval : loadedDoc ⟨true, false, some ⟨.documentStart v ts i, start, stop⟩ :: es, {}⟩ =
        (composed es {}).map fun r => { nodes := r.1.nodes, version := v, tags := ts, startImplicit := i, endImplicit := r.2.1, start := start, stop := r.2.2.1 } := rfl
      have hev' := hev
      obtain ⟨p, q, x1, x2, rfl, hx1, hx2, rfl⟩ := hev
      simp only []
      rw [hw_bind]
      refine hw_init e2 (fun g e3 hA => ?_) (fun g a e3 => ?_)
      · dsimp only
        rw [if_pos (by rfl)]
        refine hw_loadError' (bs := (x1 ++ x2) ++ bs) (e3.perm (by blocks)) ha (fun g e4 => ?_)
        exact h0 g _ (x1 ++ x2) rfl e4 (.inr (.inr (.inr ⟨v, _, p, q, x1, x2, hx1, hx2, rfl⟩))) (fun a => absurd a hA)
      · dsimp only
        rw [if_neg (by simp), hw_bind]
        refine hw_loadDocument (bs := bs) (b := b ++ [(a, stkObj ([] : List (Ptr × Nat)) 16)]) (e3.perm (by blocks)) hev'
          ⟨b, _, ha, ⟨a, 16, [], [], rfl, ⟨rfl, rfl⟩, .inr (by simp), rfl⟩, rfl⟩ hl (fun ev h => hstr ev (List.mem_cons_of_mem _ h))
          (fun g s' hs' b' leak es' m1 m2 m3 m4 => ?_) (fun g s' hs' b' j mk es' m1 m2 m3 m4 m5 => ?_)
        · dsimp only
          rw [if_pos (by rfl)]
          refine hw_loadError (bs := leak ++ bs) m2 m1 (fun g e4 => ?_)
          refine h0 g _ leak rfl e4 m3 (fun a => (m4 a).imp (fun k => limit_mono k ?_ (Nat.le_refl _)) (fun k => ⟨k.1, ?_⟩))
          · show _ ≤ 2 * (es.length + 1)
            omega
          · rw [hval, k.2]; rfl
        · obtain ⟨d1, d2, j1, j2, rfl⟩ := m4
          dsimp only
          rw [if_neg (by simp), hw_bind]
          refine hw_deleteAliases (bs := d1 ++ bs) (m5.perm (by blocks)) j2 (fun g e4 => ?_)
          rw [hw_pure]
          refine h1 g { nodes := s'.nodes, version := v, tags := ts, startImplicit := i, endImplicit := j, start := start, stop := mk } hs'.doc _ d1 (hval.trans (by rw [m1]; rfl)) ⟨rfl, m2⟩ rfl (m3.trans (List.suffix_cons _ _)) j1 e4

theorem hw_load' {p : HParser} {Q : Bool × HDoc × HParser → Heap → Prop} (e : Ext A base bs h) (hr : Loadable p) (hstr : ∀ ev, some ev ∈ p.outcomes → Stringy ev.data)
    (h0 : ∀ h' p' leak, p'.aliases = {} → Ext A base (leak ++ bs) h' → Lost leak →
      (A → stackLimit HNode (2 * p.outcomes.length) ∨ (leak = [] ∧ loadedDoc p = none)) → Q (false, {}, p') h')
    (h1 : ∀ h' d hd p' b', loadedDoc p = some d → Loadable p' → p'.outcomes <:+ p.outcomes → DocAt d hd b' → Ext A base (b' ++ bs) h' → Q (true, hd, p') h') :
    hw (hLoad p) Q h := by
  obtain ⟨started, ended, outcomes, aliases⟩ := p
  obtain ⟨has, hr⟩ := hr
  have has : aliases = {} := has
  subst has
  unfold hLoad
  rw [hw_bind]
  refine hw_init e (fun g e2 hA => ?_) (fun g a e2 => ?_)
  · dsimp only
    rw [if_pos (by rfl)]
    exact hw_loadError_empty (h0 g _ [] rfl e2 (.inl rfl) (fun a => absurd a hA))
  dsimp only
  rw [if_neg (by simp)]
  have hdoc : DocAt Doc.empty { nodes := ⟨some a, 0⟩ } [(a, stkObj ([] : List HNode) 16)] :=
    ⟨a, 16, [], [], [], [], rfl, ⟨rfl, rfl⟩, ⟨rfl, rfl⟩, ⟨rfl, rfl⟩, rfl, rfl, .inr (by simp), rfl⟩
  rw [hw_ite]
  cases started with
  | true =>
    rw [if_pos (by rfl)]
    refine hw_loadRest (bs := bs) e2 hdoc rfl rfl (fun hend => ?_) hstr h0 (fun g d hd p' b' j1 j2 _ j4 j5 j6 => h1 g d hd p' b' j1 j2 j4 j5 j6)
    have hend : ended = false := hend
    subst hend
    exact hr
  | false =>
    obtain ⟨hend, hl⟩ : ended = false ∧ Legal .start outcomes := hr
    subst hend
    rw [if_neg (by simp), hw_bind]
    match outcomes, hl, hstr, h0, h1 with
    | [], hl, hstr, h0, h1 =>
      exact hw_loadError' (bs := bs) e2 hdoc (fun g e3 => h0 g _ [] rfl e3 (.inl rfl) (fun _ => .inr ⟨rfl, rfl⟩))
    | none :: es, hl, hstr, h0, h1 =>
      exact hw_loadError' (bs := bs) e2 hdoc (fun g e3 => h0 g _ [] rfl e3 (.inl rfl) (fun _ => .inr ⟨rfl, rfl⟩))
    | some ⟨data, start, stop⟩ :: es, hl, hstr, h0, h1 =>
      obtain ⟨⟨n, hn⟩, hl⟩ := hl
      have hn : data = .streamStart n := hn
      subst hn
      unfold hParse
      rw [hw_bind]
      refine hw_giveEvent e2 fun g he x hev e3 => ?_
      obtain ⟨rfl, rfl⟩ := hev
      rw [hw_pure]
      refine hw_loadRest (p := { started := true, ended := false, outcomes := es, aliases := {} }) (bs := bs) e3 hdoc rfl rfl (fun _ => hl)
        (fun ev h => hstr ev (List.mem_cons_of_mem _ h))
        (fun g p' leak j1 j2 j3 j4 => h0 g p' leak j1 j2 j3 (fun a => (j4 a).imp (fun k => limit_mono k ?_ (Nat.le_refl _)) (fun k => ⟨k.1, k.2⟩)))
        (fun g d hd p' b' j1 j2 _ j4 j5 j6 => h1 g d hd p' b' j1 j2 (j4.trans (List.suffix_cons _ _)) j5 j6)
      show 2 * es.length ≤ 2 * (es.length + 1)
      omega

end

end LibYaml
