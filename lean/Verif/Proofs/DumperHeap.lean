import Verif.Model.DumperHeap
import Verif.Proofs.LoaderHeap
import Verif.Props.Dumper

/-!
# The dumper on the heap: helper lemmas

`DumpAt nodes hns T b`: the nodes of a document in the middle of a dump, with the table `T` of anchors, own the blocks `b`: the strings of nodes that are
not serialized yet, and the lists of children.
-/

namespace LibYaml

open Spec

macro "blocks_by" hp:term : tactic =>
  `(tactic| (rw [List.perm_iff_count]; intro z; have := List.perm_iff_count.mp $hp z;
             simp only [List.count_append, List.count_cons, List.count_nil] at this ⊢; omega))

variable {τ : Type}

/-- A node and the blocks that it owns, before and after it was serialized. -/
def DNodeAt (nd : Node) (hn : HNode) (serialized : Bool) (x : Blocks) : Prop :=
  if serialized then
    match nd.data with
    | .scalar _ st => ∃ p q n, hn = .scalar p q n st ∧ x = []
    | .sequence items st => ∃ p a n, hn = .sequence p ⟨some a, items.length⟩ st ∧ x = [(a, stkObj (items.map Int.ofNat) n)]
    | .mapping pairs st => ∃ p a n, hn = .mapping p ⟨some a, pairs.length⟩ st ∧ x = [(a, stkObj (pairs.map fun x => (Int.ofNat x.1, Int.ofNat x.2)) n)]
  else NodeAt nd hn x

def DumpAt : List Node → List HNode → List Anch → Blocks → Prop
  | [], hns, T, bs => hns = [] ∧ T = [] ∧ bs = []
  | nd :: nds, hns, T, bs => ∃ hn hns' a T' x rest, hns = hn :: hns' ∧ T = a :: T' ∧ DNodeAt nd hn a.serialized x ∧ DumpAt nds hns' T' rest ∧ bs = x ++ rest

theorem dumpAt_start {nds : List Node} {hns : List HNode} {b : Blocks} (k : NodesAt nds hns b) : DumpAt nds hns (List.replicate hns.length {}) b := by
  induction nds generalizing hns b with
  | nil =>
    obtain ⟨rfl, rfl⟩ := k
    exact ⟨rfl, rfl, rfl⟩
  | cons nd nds ih =>
    obtain ⟨hn, hns', x, rest, rfl, j1, j2, rfl⟩ := k
    exact ⟨hn, hns', {}, _, x, rest, rfl, rfl, j1, ih j2, rfl⟩

theorem dumpAt_length {nds : List Node} {hns : List HNode} {T : List Anch} {b : Blocks} (k : DumpAt nds hns T b) :
    hns.length = nds.length ∧ T.length = nds.length := by
  induction nds generalizing hns T b with
  | nil =>
    obtain ⟨rfl, rfl, rfl⟩ := k
    exact ⟨rfl, rfl⟩
  | cons nd nds ih =>
    obtain ⟨hn, hns', a, T', x, rest, rfl, rfl, j1, j2, rfl⟩ := k
    obtain ⟨h1, h2⟩ := ih j2
    exact ⟨by simp [h1], by simp [h2]⟩

/-- One node. -/
theorem dumpAt_access {nds : List Node} {hns : List HNode} {T : List Anch} {b : Blocks} {i : Nat} {nd : Node} (k : DumpAt nds hns T b)
    (hi : nds[i]? = some nd) : ∃ hn a x rest, hns[i]? = some hn ∧ T[i]? = some a ∧ DNodeAt nd hn a.serialized x ∧ b.Perm (x ++ rest) ∧
      ∀ a' x', DNodeAt nd hn a'.serialized x' → ∃ b', DumpAt nds hns (T.set i a') b' ∧ b'.Perm (x' ++ rest) := by
  induction nds generalizing hns T b i with
  | nil => cases hi
  | cons nd0 nds ih =>
    obtain ⟨hn, hns', a, T', x, rest, rfl, rfl, j1, j2, rfl⟩ := k
    cases i with
    | zero =>
      cases hi
      exact ⟨hn, a, x, rest, rfl, rfl, j1, List.Perm.refl _, fun a' x' hx => ⟨x' ++ rest, ⟨hn, hns', a', T', x', rest, rfl, rfl, hx, j2, rfl⟩, List.Perm.refl _⟩⟩
    | succ i =>
      obtain ⟨hn1, a1, x1, r1, h1, h2, h3, h4, h5⟩ := ih j2 hi
      refine ⟨hn1, a1, x1, x ++ r1, h1, h2, h3, by blocks_by h4, fun a' x' hx => ?_⟩
      obtain ⟨b', h6, h7⟩ := h5 a' x' hx
      exact ⟨x ++ b', ⟨hn, hns', a, T'.set i a', x, b', rfl, rfl, j1, h6, rfl⟩, by blocks_by h7⟩

section
variable {A : Prop} {base : Nat → Option Obj} {bs bs' : Blocks} {h : Heap}

theorem hw_anch {aa k : Nat} {T : List Anch} {a : Anch} {Q : Anch → Heap → Prop} (e : Ext A base bs h) (hm : (aa, .anchs T) ∈ bs) (hk : T[k]? = some a)
    (hQ : Q a h) : hw (hAnch k (some aa)) Q h := by
  unfold hAnch
  rw [hw_bind]
  refine hw_load e hm ?_
  simp only [hk]
  exact hQ

theorem hw_setAnch {aa k : Nat} {T : List Anch} {a : Anch} {Q : Unit → Heap → Prop} (e : Ext A base bs h) (hp : bs.Perm ((aa, .anchs T) :: bs'))
    (hk : k < T.length) (hQ : ∀ h', Ext A base ((aa, .anchs (T.set k a)) :: bs') h' → Q () h') : hw (hSetAnch k a (some aa)) Q h := by
  unfold hSetAnch
  rw [hw_bind]
  refine hw_load e (hp.mem_iff.mpr List.mem_cons_self) ?_
  simp only []
  rw [if_pos hk]
  exact hw_store e hp hQ

theorem hw_node {na n t i : Nat} {hns : List HNode} {hn : HNode} {Q : HNode → Heap → Prop} (e : Ext A base bs h) (hm : (na, stkObj hns n) ∈ bs) (h0 : 0 < i)
    (hi : hns[i - 1]? = some hn) (hQ : Q hn h) : hw (hNode (Int.ofNat i) ⟨some na, t⟩) Q h := by
  unfold hNode
  rw [if_pos (by simpa using h0)]
  exact hw_get e hm hi hQ

/-! ### Texts -/

theorem textBytes_ascii {t d : Text} (ht : CText t) (hd : ∀ c ∈ d, c < 0x80) : textBytes t = d.map Nat.toUInt8 ↔ t = d := by
  induction t generalizing d with
  | nil =>
    cases d with
    | nil => simp [textBytes]
    | cons c d => simp [textBytes]
  | cons x t ih =>
    have hx := ht x (.head _)
    have e1 : textBytes (x :: t) = octets x ++ textBytes t := rfl
    rw [e1]
    by_cases hlow : x < 0x80
    · have e2 : octets x = [UInt8.ofNat x] := octets_low hlow
      rw [e2, List.singleton_append]
      cases d with
      | nil => simp
      | cons c d =>
        rw [List.map_cons, List.cons.injEq, ih (fun y hy => ht y (.tail _ hy)) (fun y hy => hd y (.tail _ hy)), List.cons.injEq]
        have hc := hd c (.head _)
        constructor
        · rintro ⟨h1, h2⟩
          refine ⟨?_, h2⟩
          have := congrArg UInt8.toNat h1
          simp at this
          omega
        · rintro ⟨rfl, h2⟩
          exact ⟨rfl, h2⟩
    · obtain ⟨b, r, hb, hge⟩ := octets_high (by omega) hx.2
      rw [hb]
      cases d with
      | nil => simp
      | cons c d =>
        have hc := hd c (.head _)
        simp only [List.cons_append, List.map_cons, List.cons.injEq]
        constructor
        · rintro ⟨h1, _⟩
          have := congrArg UInt8.toNat h1
          simp at this
          omega
        · rintro ⟨rfl, _⟩
          omega

theorem hw_isTag {dflt tag : Text} {p : Ptr} {x : Blocks} {Q : Bool → Heap → Prop} (e : Ext A base bs h) (hs : StrAt (some (textBytes tag)) p x)
    (hx : ∀ y ∈ x, y ∈ bs) (ht : CText tag) (hd : ∀ c ∈ dflt, c < 0x80) (hQ : Q (decide (tag = dflt)) h) : hw (hIsTag dflt p) Q h := by
  unfold hIsTag
  rw [hw_bind]
  refine hw_string e hs hx (ctext_zero ht) ?_
  rw [hw_pure]
  have : (textBytes tag == dflt.map Nat.toUInt8) = decide (tag = dflt) := by
    rw [Bool.eq_iff_iff]
    simp only [beq_iff_eq, decide_eq_true_eq]
    exact textBytes_ascii ht hd
  rw [this]
  exact hQ

theorem strTag_ascii : ∀ c ∈ strTag, c < 0x80 := by decide
theorem seqTag_ascii : ∀ c ∈ seqTag, c < 0x80 := by decide
theorem mapTag_ascii : ∀ c ∈ mapTag, c < 0x80 := by decide

theorem hw_anchor {a : Anch} {Q : Bool × Ptr → Heap → Prop} (e : Ext A base bs h) (ha : a.anchor ≤ 2147483647)
    (h0 : ∀ h', Ext A base bs h' → ¬ A → Q (false, none) h')
    (h1 : ∀ h' p x, StrAt ((anchorText a).map textBytes) p x → Ext A base (x ++ bs) h' → Q (true, p) h') : hw (hAnchor a.anchor) Q h := by
  unfold hAnchor
  rw [hw_ite]
  by_cases hz : a.anchor = 0
  · rw [if_pos hz, hw_pure]
    exact h1 h none [] (by unfold anchorText; rw [if_pos hz]; exact ⟨rfl, rfl⟩) e
  · rw [if_neg hz]
    have hl := generateAnchor_length ha
    have hlen : (textBytes (generateAnchor a.anchor)).length = (generateAnchor a.anchor).length := by
      have key : ∀ t : Text, (∀ c ∈ t, c < 0x80) → (textBytes t).length = t.length := by
        intro t ht
        induction t with
        | nil => rfl
        | cons c t ih =>
          have : textBytes (c :: t) = octets c ++ textBytes t := rfl
          rw [this, List.length_append, ih (fun y hy => ht y (.tail _ hy))]
          rw [octets_low (ht c (.head _))]
          simp
          omega
      refine key _ fun c hc => ?_
      rcases (generateAnchor_chars a.anchor).2 c hc with h | h | h <;> omega
    simp only []
    rw [if_neg (by omega), hw_bind]
    refine hw_malloc e (fun h' e' hA => h0 h' e' hA) (fun h' p e' => ?_)
    exact h1 h' (some p) _ (by unfold anchorText; rw [if_neg hz]; exact ⟨p, [], rfl, rfl⟩) e'

end

/-! ### Counting references -/

theorem dnode_same {nd : Node} {hn : HNode} {s : Bool} {x : Blocks} : DNodeAt nd hn s x → ∀ a : Anch, a.serialized = s → DNodeAt nd hn a.serialized x := by
  intro h a ha
  rw [ha]
  exact h

/-- The children of a collection stay where they are during the dump. -/
theorem dumpAt_items {nds : List Node} {hns : List HNode} {T : List Anch} {b : Blocks} {i : Nat} {nd : Node} {items : List Nat} {st : CollStyle} {p : Ptr} {s : HStk}
    {st' : CollStyle} (k : DumpAt nds hns T b) (hi : nds[i]? = some nd) (hd : nd.data = .sequence items st) (hn : hns[i]? = some (.sequence p s st')) :
    ∃ a n, s = ⟨some a, items.length⟩ ∧ st' = st ∧ (a, stkObj (items.map Int.ofNat) n) ∈ b := by
  obtain ⟨hn', a, x, rest, h1, _, h3, h4, _⟩ := dumpAt_access k hi
  rw [h1] at hn
  cases hn
  unfold DNodeAt NodeAt at h3
  simp only [hd] at h3
  split at h3
  · obtain ⟨_, a, n, h, rfl⟩ := h3
    cases h
    exact ⟨a, n, rfl, rfl, h4.mem_iff.mpr (by simp)⟩
  · obtain ⟨_, a, n, x, h, _, _, rfl⟩ := h3
    cases h
    exact ⟨a, n, rfl, rfl, h4.mem_iff.mpr (by simp)⟩

theorem dumpAt_pairs {nds : List Node} {hns : List HNode} {T : List Anch} {b : Blocks} {i : Nat} {nd : Node} {pairs : List (Nat × Nat)} {st : CollStyle} {p : Ptr}
    {s : HStk} {st' : CollStyle} (k : DumpAt nds hns T b) (hi : nds[i]? = some nd) (hd : nd.data = .mapping pairs st) (hn : hns[i]? = some (.mapping p s st')) :
    ∃ a n, s = ⟨some a, pairs.length⟩ ∧ st' = st ∧ (a, stkObj (pairs.map fun x => (Int.ofNat x.1, Int.ofNat x.2)) n) ∈ b := by
  obtain ⟨hn', a, x, rest, h1, _, h3, h4, _⟩ := dumpAt_access k hi
  rw [h1] at hn
  cases hn
  unfold DNodeAt NodeAt at h3
  simp only [hd] at h3
  split at h3
  · obtain ⟨_, a, n, h, rfl⟩ := h3
    cases h
    exact ⟨a, n, rfl, rfl, h4.mem_iff.mpr (by simp)⟩
  · obtain ⟨_, a, n, x, h, _, _, rfl⟩ := h3
    cases h
    exact ⟨a, n, rfl, rfl, h4.mem_iff.mpr (by simp)⟩

/-- The constructor of a node in the heap. -/
theorem dnode_kind {nd : Node} {hn : HNode} {s : Bool} {x : Blocks} (h : DNodeAt nd hn s x) :
    match nd.data with
    | .scalar _ st => ∃ p q n, hn = .scalar p q n st
    | .sequence items st => ∃ p a, hn = .sequence p ⟨some a, items.length⟩ st
    | .mapping pairs st => ∃ p a, hn = .mapping p ⟨some a, pairs.length⟩ st := by
  unfold DNodeAt NodeAt at h
  cases hd : nd.data with
  | scalar v st =>
    rw [hd] at h
    split at h
    · obtain ⟨p, q, n, h, _⟩ := h; exact ⟨p, q, n, h⟩
    · obtain ⟨p, q, _, _, h, _⟩ := h; exact ⟨p, q, _, h⟩
  | sequence items st =>
    rw [hd] at h
    split at h
    · obtain ⟨p, a, n, h, _⟩ := h; exact ⟨p, a, h⟩
    · obtain ⟨p, a, _, _, h, _⟩ := h; exact ⟨p, a, h⟩
  | mapping pairs st =>
    rw [hd] at h
    split at h
    · obtain ⟨p, a, n, h, _⟩ := h; exact ⟨p, a, h⟩
    · obtain ⟨p, a, _, _, h, _⟩ := h; exact ⟨p, a, h⟩

section
variable {A : Prop} {base : Nat → Option Obj} {bs : Blocks} {h : Heap} {nodes : List Node} {hns : List HNode} {na n t aa : Nat}

/-- The heap during the counting of references; `b` does not change. -/
def CountAt (A : Prop) (base : Nat → Option Obj) (nodes : List Node) (hns : List HNode) (na n aa : Nat) (b bs : Blocks) (T : List Anch) (h : Heap) : Prop :=
  DumpAt nodes hns T b ∧ Ext A base ((na, stkObj hns n) :: (aa, .anchs T) :: (b ++ bs)) h

/-- Counting on the heap is counting on values. -/
def Counts (A : Prop) (base : Nat → Option Obj) (nodes : List Node) (hns : List HNode) (na n aa : Nat) (b bs : Blocks)
    (f : Nat → AState → Except Fail AState) (g : Int → Nat → HM Nat) : Prop :=
  ∀ (i : Nat) (s s' : AState) (h : Heap), f i s = .ok s' → CountAt A base nodes hns na n aa b bs s.anchors h →
    hw (g (Int.ofNat i) s.last) (fun l h' => l = s'.last ∧ CountAt A base nodes hns na n aa b bs s'.anchors h') h

theorem hw_forItems {b : Blocks} {f : Nat → AState → Except Fail AState} {g : Int → Nat → HM Nat} (hfg : Counts A base nodes hns na n aa b bs f g)
    {sa m u : Nat} {pre items : List Nat} (hm : (sa, stkObj ((pre ++ items).map Int.ofNat) m) ∈ b) {s s' : AState} (hf : forItems f items s = .ok s')
    (hc : CountAt A base nodes hns na n aa b bs s.anchors h) :
    hw (hForItems g ⟨some sa, u⟩ items.length pre.length s.last) (fun l h' => l = s'.last ∧ CountAt A base nodes hns na n aa b bs s'.anchors h') h := by
  induction items generalizing pre s h with
  | nil => cases hf; exact ⟨rfl, hc⟩
  | cons i is ih =>
    simp only [forItems] at hf
    cases hi : f i s with
    | error e => rw [hi] at hf; cases hf
    | ok s1 =>
      rw [hi] at hf
      rw [List.length_cons]
      unfold hForItems
      rw [hw_bind]
      refine hw_get (v := Int.ofNat i) hc.2 (.tail _ (.tail _ (List.mem_append_left _ hm))) (by simp) ?_
      rw [hw_bind]
      refine hw_mono (hfg _ _ _ _ hi hc) fun l h' ⟨hl, hc'⟩ => ?_
      subst hl
      have := ih (pre := pre ++ [i]) (by simpa using hm) hf hc'
      rw [List.length_append] at this
      exact this

theorem hw_forPairs {b : Blocks} {f : Nat → AState → Except Fail AState} {g : Int → Nat → HM Nat} (hfg : Counts A base nodes hns na n aa b bs f g)
    {sa m u : Nat} {pre pairs : List (Nat × Nat)} (hm : (sa, stkObj ((pre ++ pairs).map fun x => (Int.ofNat x.1, Int.ofNat x.2)) m) ∈ b) {s s' : AState}
    (hf : forPairs f pairs s = .ok s') (hc : CountAt A base nodes hns na n aa b bs s.anchors h) :
    hw (hForPairs g ⟨some sa, u⟩ pairs.length pre.length s.last) (fun l h' => l = s'.last ∧ CountAt A base nodes hns na n aa b bs s'.anchors h') h := by
  induction pairs generalizing pre s h with
  | nil => cases hf; exact ⟨rfl, hc⟩
  | cons i is ih =>
    simp only [forPairs] at hf
    cases hi : f i.1 s with
    | error e => rw [hi] at hf; cases hf
    | ok s1 =>
      rw [hi] at hf
      simp only at hf
      cases hi2 : f i.2 s1 with
      | error e => rw [hi2] at hf; cases hf
      | ok s2 =>
        rw [hi2] at hf
        rw [List.length_cons]
        unfold hForPairs
        rw [hw_bind]
        refine hw_get (v := (Int.ofNat i.1, Int.ofNat i.2)) hc.2 (.tail _ (.tail _ (List.mem_append_left _ hm))) (by simp) ?_
        rw [hw_bind]
        refine hw_mono (hfg _ _ _ _ hi hc) fun l h' ⟨hl, hc'⟩ => ?_
        subst hl
        rw [hw_bind]
        refine hw_mono (hfg _ _ _ _ hi2 hc') fun l h' ⟨hl, hc'⟩ => ?_
        subst hl
        have := ih (pre := pre ++ [i]) (by simpa using hm) hf hc'
        rw [List.length_append] at this
        exact this

/-- The same nodes with other counters. -/
theorem dumpAt_count {T : List Anch} {b : Blocks} {i : Nat} {a a' : Anch} (k : DumpAt nodes hns T b) (ha : T[i]? = some a)
    (hs : a'.serialized = a.serialized) : DumpAt nodes hns (T.set i a') b := by
  induction nodes generalizing hns T b i with
  | nil =>
    obtain ⟨rfl, rfl, rfl⟩ := k
    exact ⟨rfl, rfl, rfl⟩
  | cons nd nds ih =>
    obtain ⟨hn, hns', a0, T', x, rest, rfl, rfl, j1, j2, rfl⟩ := k
    cases i with
    | zero =>
      cases ha
      exact ⟨hn, hns', a', T', x, rest, rfl, rfl, dnode_same j1 _ hs, j2, rfl⟩
    | succ i => exact ⟨hn, hns', a0, _, x, rest, rfl, rfl, j1, ih j2 ha, rfl⟩

theorem hw_anchorNode (fuel : Nat) {b : Blocks} : Counts A base nodes hns na n aa b bs (anchorNode nodes fuel) (hAnchorNode ⟨some na, t⟩ (some aa) fuel) := by
  induction fuel with
  | zero => intro i s s' h hf; cases hf
  | succ fuel ih =>
    intro i s s' h hf hc
    obtain ⟨hd, e⟩ := hc
    simp only [anchorNode] at hf
    by_cases h0 : i = 0
    · rw [if_pos h0] at hf; cases hf
    · rw [if_neg h0] at hf
      cases hn : nodes[i - 1]? with
      | none => rw [hn] at hf; cases hf
      | some nd =>
        obtain ⟨hn', a, x, rest, k1, k2, k3, k4, _⟩ := dumpAt_access hd hn
        simp only [hn, k2] at hf
        have hlt : i - 1 < s.anchors.length := by
          rcases Nat.lt_or_ge (i - 1) s.anchors.length with h | h
          · exact h
          · rw [List.getElem?_eq_none h] at k2; cases k2
        have hswap : ∀ {T : List Anch} {o o' : Obj} {bs'' : Blocks}, ((na, stkObj hns n) :: (aa, o) :: bs'').Perm ((aa, o) :: (na, stkObj hns n) :: bs'') :=
          fun {T o o' bs''} => List.Perm.swap _ _ _
        unfold hAnchorNode
        rw [hw_bind]
        refine hw_node e List.mem_cons_self (by omega) k1 ?_
        simp only []
        rw [hw_bind]
        refine hw_anch e (.tail _ List.mem_cons_self) (by simpa using k2) ?_
        rw [hw_bind]
        refine hw_setAnch (bs' := (na, stkObj hns n) :: (b ++ bs)) e (List.Perm.swap _ _ _) (by simpa using hlt) (fun h1 e1 => ?_)
        simp only [Int.ofNat_eq_natCast, Int.toNat_natCast] at e1 ⊢
        have hd1 : DumpAt nodes hns (s.anchors.set (i - 1) { a with references := a.references + 1 }) b := dumpAt_count hd k2 rfl
        have e1 := e1.perm (List.Perm.swap _ _ _)
        rw [hw_ite]
        by_cases hr : a.references + 1 = 1
        · rw [if_pos hr] at hf ⊢
          have hk := dnode_kind k3
          cases hdata : nd.data with
          | scalar v st =>
            rw [hdata] at hk hf
            obtain ⟨p, q, m, rfl⟩ := hk
            cases hf
            exact ⟨rfl, hd1, e1⟩
          | sequence items st =>
            rw [hdata] at hk
            simp only [hdata] at hf
            obtain ⟨p, sa, rfl⟩ := hk
            obtain ⟨a', m, h1, _, h3⟩ := dumpAt_items hd hn hdata k1
            cases h1
            exact hw_forItems (pre := []) (s := ⟨s.anchors.set (i - 1) { a with references := a.references + 1 }, s.last⟩) ih (by simpa using h3) hf ⟨hd1, e1⟩
          | mapping pairs st =>
            rw [hdata] at hk
            simp only [hdata] at hf
            obtain ⟨p, sa, rfl⟩ := hk
            obtain ⟨a', m, h1, _, h3⟩ := dumpAt_pairs hd hn hdata k1
            cases h1
            exact hw_forPairs (pre := []) (s := ⟨s.anchors.set (i - 1) { a with references := a.references + 1 }, s.last⟩) ih (by simpa using h3) hf ⟨hd1, e1⟩
        · rw [if_neg hr] at hf ⊢
          rw [hw_ite]
          by_cases hr2 : a.references + 1 = 2
          · rw [if_pos hr2] at hf ⊢
            cases hf
            rw [hw_bind]
            refine hw_anch e1 (.tail _ List.mem_cons_self) (a := { a with references := a.references + 1 }) (by simp [hlt]) ?_
            rw [hw_bind]
            refine hw_setAnch (bs' := (na, stkObj hns n) :: (b ++ bs)) e1 (List.Perm.swap _ _ _) (by simpa using hlt) (fun h2 e2 => ?_)
            rw [hw_pure]
            simp only [List.set_set] at e2
            exact ⟨rfl, dumpAt_count hd k2 rfl, e2.perm (List.Perm.swap _ _ _)⟩
          · rw [if_neg hr2] at hf ⊢
            cases hf
            exact ⟨rfl, hd1, e1⟩

end

/-! ### Sending the events -/

/-- An emitter on the heap: `owns t o` says that the emitter in the state `t` owns the blocks `o`. It takes over the event, may free it now or later, may run out
of memory, and with enough memory it does what `f` says. -/
def Takes (emit : HEvent → τ → HM (Bool × τ)) (owns : τ → Blocks → Prop) (f : EvData → τ → Bool × τ) : Prop :=
  ∀ (A : Prop) (base : Nat → Option Obj) (bs : Blocks) (h : Heap) (ev : EvData) (he : HEvent) (x : Blocks) (t : τ) (o : Blocks), EventAt ev he x → owns t o →
    Ext A base (x ++ (o ++ bs)) h → hw (emit he t) (fun r h' => ∃ o', owns r.2 o' ∧ Ext A base (o' ++ bs) h' ∧ (A → r = f ev t)) h

/-- The same with more detail. `owns true t v o`: the emitter `t` stands for the value `v`, owns the blocks `o`, and may be called; after a failure only
`owns false` is known. It is only called with `good` events. With memory it does what `f` says, unless it gets `over` some limit; if `full`, it does so
whenever it succeeds. -/
structure Handles (emit : HEvent → τ → HM (Bool × τ)) (full : Prop) (owns : Bool → τ → σ → Blocks → Prop) (good : EvData → Prop) (over : σ → Prop) (f : EvData → σ → Bool × σ) : Prop where
  weak : ∀ t v o, owns true t v o → owns false t v o
  step : ∀ (A : Prop) (base : Nat → Option Obj) (bs : Blocks) (h : Heap) (ev : EvData) (he : HEvent) (x : Blocks) (t : τ) (v : σ) (o : Blocks), good ev → EventAt ev he x →
    owns true t v o → Ext A base (x ++ (o ++ bs)) h →
    hw (emit he t) (fun r h' => ∃ v' o', owns r.1 r.2 v' o' ∧ Ext A base (o' ++ bs) h' ∧ (full ∨ A → (r.1, v') = f ev v ∨ (r.1 = false ∧ (A → over v')))) h

theorem Takes.handles {emit : HEvent → τ → HM (Bool × τ)} {owns : τ → Blocks → Prop} {f : EvData → τ → Bool × τ} (h : Takes emit owns f) :
    Handles emit False (fun _ t v o => t = v ∧ owns t o) (fun _ => True) (fun _ => False) f := by
  refine ⟨fun _ _ _ h => h, fun A base bs g ev he x t v o _ hev ho e => ?_⟩
  obtain ⟨rfl, ho⟩ := ho
  refine hw_mono (h A base bs g ev he x t o hev ho e) ?_
  rintro r h' ⟨o', h1, h2, h3⟩
  exact ⟨r.2, o', ⟨rfl, h1⟩, h2, fun hA => .inl (h3 (hA.elim False.elim id))⟩

/-- The events of the nodes are good. -/
structure GoodNodes (good : EvData → Prop) (nodes : List Node) : Prop where
  named : ∀ n, good (.alias (generateAnchor n))
  sequenceEnd : good .sequenceEnd
  mappingEnd : good .mappingEnd
  node : ∀ nd ∈ nodes, ∀ a : Anch, match nd.data with
    | .scalar v st => ∀ p q, good (.scalar (anchorText a) (some nd.tag) v p q st)
    | .sequence _ st => ∀ i, good (.sequenceStart (anchorText a) (some nd.tag) i st)
    | .mapping _ st => ∀ i, good (.mappingStart (anchorText a) (some nd.tag) i st)

/-- The emitter that accepts everything. -/
def accept : Event → Unit → Bool × Unit := fun _ u => (true, u)

section
variable {A : Prop} {base : Nat → Option Obj} {bs : Blocks} {h : Heap} {nodes : List Node} {hns : List HNode} {na n t aa : Nat}
  {emit : HEvent → τ → HM (Bool × τ)} {full : Prop} {owns : Bool → τ → σ → Blocks → Prop} {good : EvData → Prop} {over : σ → Prop} {f : EvData → σ → Bool × σ}

/-- The heap during the dump. -/
def Busy (A : Prop) (base : Nat → Option Obj) (nodes : List Node) (hns : List HNode) (na n aa : Nat) (owns : τ → σ → Blocks → Prop) (bs : Blocks) (T : List Anch)
    (t : τ) (v : σ) (h : Heap) : Prop :=
  (∀ a ∈ T, a.anchor ≤ 2147483647) ∧
    ∃ b o, DumpAt nodes hns T b ∧ owns t v o ∧ Ext A base ((na, stkObj hns n) :: (aa, .anchs T) :: (b ++ (o ++ bs))) h

/-- How a part of the dump ends: with the table `T'` or earlier, and with enough memory as on values. -/
def Sends (A : Prop) (base : Nat → Option Obj) (full : Prop) (nodes : List Node) (hns : List HNode) (na n aa : Nat) (owns : Bool → τ → σ → Blocks → Prop) (over : σ → Prop) (bs : Blocks)
    (T' : List Anch) (v : Except Fail (Bool × DState σ)) (r : Bool × τ) (h : Heap) : Prop :=
  ∃ T2 v2, Busy A base nodes hns na n aa (owns r.1) bs T2 r.2 v2 h ∧ (r.1 = true → T2 = T') ∧ (full ∨ A → v = .ok (r.1, ⟨T2, v2⟩) ∨ (r.1 = false ∧ (A → over v2)))

def Sim (A : Prop) (base : Nat → Option Obj) (full : Prop) (nodes : List Node) (hns : List HNode) (na n aa : Nat) (owns : Bool → τ → σ → Blocks → Prop) (over : σ → Prop) (bs : Blocks)
    (u : Nat → DState Unit → Except Fail (Bool × DState Unit)) (v : Nat → DState σ → Except Fail (Bool × DState σ)) (g : Int → τ → HM (Bool × τ)) : Prop :=
  ∀ (i : Nat) (T T' : List Anch) (t : τ) (x : σ) (h : Heap), u i ⟨T, ()⟩ = .ok (true, ⟨T', ()⟩) → Busy A base nodes hns na n aa (owns true) bs T t x h →
    hw (g (Int.ofNat i) t) (Sends A base full nodes hns na n aa owns over bs T' (v i ⟨T, x⟩)) h

theorem hw_emits (ht : Handles emit full owns good over f) {ev : EvData} {he : HEvent} {x b o : Blocks} {T : List Anch} {t : τ} {v : σ} (hg : good ev) (hev : EventAt ev he x)
    (hT : ∀ a ∈ T, a.anchor ≤ 2147483647) (hd : DumpAt nodes hns T b) (ho : owns true t v o)
    (e : Ext A base (x ++ ((na, stkObj hns n) :: (aa, .anchs T) :: (b ++ (o ++ bs)))) h) :
    hw (emit he t) (Sends A base full nodes hns na n aa owns over bs T (.ok (emitEv (fun e t => f e.data t) ev ⟨T, v⟩))) h := by
  refine hw_mono (ht.step A base ((na, stkObj hns n) :: (aa, .anchs T) :: (b ++ bs)) h ev he x t v o hg hev ho (e.perm (by blocks))) ?_
  rintro r h' ⟨v', o', h1, h2, h3⟩
  refine ⟨T, v', ⟨hT, b, o', hd, h1, h2.perm (by blocks)⟩, fun _ => rfl, fun hA => (h3 hA).imp (fun h3 => ?_) id⟩
  unfold emitEv
  simp only [← h3]

theorem went {p q : Prop} (h : p ∨ (true = false ∧ q)) : p := h.elim id fun h => absurd h.1 (by simp)

theorem hw_dumpItems {u : Nat → DState Unit → Except Fail (Bool × DState Unit)} {v : Nat → DState σ → Except Fail (Bool × DState σ)} {g : Int → τ → HM (Bool × τ)}
    (hs : Sim A base full nodes hns na n aa owns over bs u v g) {sa w : Nat} {pre items : List Nat}
    (hm : ∀ T b, DumpAt nodes hns T b → ∃ m, (sa, stkObj ((pre ++ items).map Int.ofNat) m) ∈ b) {T T' : List Anch} {t : τ} {z : σ}
    (hu : dumpItems u items ⟨T, ()⟩ = .ok (true, ⟨T', ()⟩)) (hb : Busy A base nodes hns na n aa (owns true) bs T t z h) :
    hw (hDumpItems g ⟨some sa, w⟩ items.length pre.length t) (Sends A base full nodes hns na n aa owns over bs T' (dumpItems v items ⟨T, z⟩)) h := by
  induction items generalizing pre T t z h with
  | nil => cases hu; exact ⟨T', z, hb, fun _ => rfl, fun _ => .inl rfl⟩
  | cons i is ih =>
    simp only [dumpItems] at hu
    cases hi : u i ⟨T, ()⟩ with
    | error e => rw [hi] at hu; cases hu
    | ok r =>
      obtain ⟨ok, T1, x⟩ := r
      rw [hi] at hu
      cases ok with
      | false => cases hu
      | true =>
        simp only at hu
        rw [List.length_cons]
        unfold hDumpItems
        rw [hw_bind]
        obtain ⟨hT, b, o, hd, ho, e⟩ := id hb
        obtain ⟨m, hmm⟩ := hm T b hd
        refine hw_get (v := Int.ofNat i) e (.tail _ (.tail _ (List.mem_append_left _ hmm))) (by simp) ?_
        rw [hw_bind]
        refine hw_mono (hs _ _ _ _ _ _ hi hb) ?_
        rintro ⟨ok, t1⟩ h1 ⟨T2, z2, k1, k2, k3⟩
        dsimp only at k1 k2 k3 ⊢
        cases ok with
        | false =>
          rw [if_pos (by rfl), hw_pure]
          refine ⟨T2, z2, k1, fun h => (by cases h), fun hA => (k3 hA).imp (fun k3 => ?_) id⟩
          simp only [dumpItems, k3]
        | true =>
          rw [if_neg (by simp)]
          have k2 := k2 rfl
          subst k2
          have := ih (pre := pre ++ [i]) (by simpa using hm) hu k1
          rw [List.length_append] at this
          refine hw_mono this ?_
          rintro r h' ⟨T3, z3, j1, j2, j3⟩
          refine ⟨T3, z3, j1, j2, fun hA => (j3 hA).imp (fun j3 => ?_) id⟩
          simp only [dumpItems, went (k3 hA), j3]

theorem hw_dumpPairs {u : Nat → DState Unit → Except Fail (Bool × DState Unit)} {v : Nat → DState σ → Except Fail (Bool × DState σ)} {g : Int → τ → HM (Bool × τ)}
    (hs : Sim A base full nodes hns na n aa owns over bs u v g) {sa w : Nat} {pre pairs : List (Nat × Nat)}
    (hm : ∀ T b, DumpAt nodes hns T b → ∃ m, (sa, stkObj ((pre ++ pairs).map fun x => (Int.ofNat x.1, Int.ofNat x.2)) m) ∈ b) {T T' : List Anch} {t : τ} {z : σ}
    (hu : dumpPairs u pairs ⟨T, ()⟩ = .ok (true, ⟨T', ()⟩)) (hb : Busy A base nodes hns na n aa (owns true) bs T t z h) :
    hw (hDumpPairs g ⟨some sa, w⟩ pairs.length pre.length t) (Sends A base full nodes hns na n aa owns over bs T' (dumpPairs v pairs ⟨T, z⟩)) h := by
  induction pairs generalizing pre T t z h with
  | nil => cases hu; exact ⟨T', z, hb, fun _ => rfl, fun _ => .inl rfl⟩
  | cons i is ih =>
    simp only [dumpPairs] at hu
    cases hi : u i.1 ⟨T, ()⟩ with
    | error e => rw [hi] at hu; cases hu
    | ok r =>
      obtain ⟨ok, T1, x⟩ := r
      rw [hi] at hu
      cases ok with
      | false => cases hu
      | true =>
        simp only at hu
        cases hi2 : u i.2 ⟨T1, x⟩ with
        | error e => rw [hi2] at hu; cases hu
        | ok r =>
          obtain ⟨ok, T12, x⟩ := r
          rw [hi2] at hu
          cases ok with
          | false => cases hu
          | true =>
            simp only at hu
            rw [List.length_cons]
            unfold hDumpPairs
            rw [hw_bind]
            obtain ⟨hT, b, o, hd, ho, e⟩ := id hb
            obtain ⟨m, hmm⟩ := hm T b hd
            refine hw_get (v := (Int.ofNat i.1, Int.ofNat i.2)) e (.tail _ (.tail _ (List.mem_append_left _ hmm))) (by simp) ?_
            rw [hw_bind]
            refine hw_mono (hs _ _ _ _ _ _ hi hb) ?_
            rintro ⟨ok, t1⟩ h1 ⟨T2, z2, k1, k2, k3⟩
            dsimp only at k1 k2 k3 ⊢
            cases ok with
            | false =>
              rw [if_pos (by rfl), hw_pure]
              refine ⟨T2, z2, k1, fun h => (by cases h), fun hA => (k3 hA).imp (fun k3 => ?_) id⟩
              simp only [dumpPairs, k3]
            | true =>
              rw [if_neg (by simp)]
              have k2 := k2 rfl
              subst k2
              rw [hw_bind]
              refine hw_mono (hs _ _ _ _ _ _ hi2 k1) ?_
              rintro ⟨ok, t2⟩ h2 ⟨T3, z3, l1, l2, l3⟩
              dsimp only at l1 l2 l3 ⊢
              cases ok with
              | false =>
                rw [if_pos (by rfl), hw_pure]
                refine ⟨T3, z3, l1, fun h => (by cases h), fun hA => (l3 hA).imp (fun l3 => ?_) id⟩
                simp only [dumpPairs, went (k3 hA), l3]
              | true =>
                rw [if_neg (by simp)]
                have l2 := l2 rfl
                subst l2
                have := ih (pre := pre ++ [i]) (by simpa using hm) hu l1
                rw [List.length_append] at this
                refine hw_mono this ?_
                rintro r h' ⟨T4, z4, j1, j2, j3⟩
                refine ⟨T4, z4, j1, j2, fun hA => (j3 hA).imp (fun j3 => ?_) id⟩
                simp only [dumpPairs, went (k3 hA), went (l3 hA), j3]

/-- Start event, children, end event. -/
theorem hw_dumpColl (ht : Handles emit full owns good over f) {start stop : EvData} {hstart hstop : HEvent} {x b o : Blocks} {T T' : List Anch} {t : τ} {z : σ}
    {kids : DState σ → Except Fail (Bool × DState σ)} {hkids : τ → HM (Bool × τ)} (hg : good start) (hg' : good stop)
    (hev : EventAt start hstart x) (hev' : EventAt stop hstop [])
    (hk : ∀ t' z' h', Busy A base nodes hns na n aa (owns true) bs T t' z' h' → hw (hkids t') (Sends A base full nodes hns na n aa owns over bs T' (kids ⟨T, z'⟩)) h')
    (hT : ∀ a ∈ T, a.anchor ≤ 2147483647) (hd : DumpAt nodes hns T b) (ho : owns true t z o)
    (e : Ext A base (x ++ ((na, stkObj hns n) :: (aa, .anchs T) :: (b ++ (o ++ bs)))) h) :
    hw (do
      let (ok, t) ← emit hstart t
      if !ok then return (false, t)
      else do
        let (ok, t) ← hkids t
        if !ok then return (false, t) else emit hstop t)
      (Sends A base full nodes hns na n aa owns over bs T' (dumpColl (fun e t => f e.data t) start stop kids ⟨T, z⟩)) h := by
  rw [hw_bind]
  refine hw_mono (hw_emits ht hg hev hT hd ho e) ?_
  rintro ⟨ok, t1⟩ h1 ⟨T2, z2, k1, k2, k3⟩
  dsimp only at k1 k2 k3 ⊢
  cases ok with
  | false =>
    rw [if_pos (by rfl), hw_pure]
    refine ⟨T2, z2, k1, fun h => (by cases h), fun hA => (k3 hA).imp (fun k3 => ?_) id⟩
    simp only [Except.ok.injEq] at k3
    simp only [dumpColl, k3]
  | true =>
    rw [if_neg (by simp)]
    have k2 := k2 rfl
    subst k2
    rw [hw_bind]
    refine hw_mono (hk _ _ _ k1) ?_
    rintro ⟨ok, t2⟩ h2 ⟨T3, z3, l1, l2, l3⟩
    dsimp only at l1 l2 l3 ⊢
    have k4 : full ∨ A → emitEv (fun e t => f e.data t) start ⟨T2, z⟩ = (true, ⟨T2, z2⟩) := fun hA => by
      have k3 := went (k3 hA)
      simp only [Except.ok.injEq] at k3
      exact k3
    cases ok with
    | false =>
      rw [if_pos (by rfl), hw_pure]
      refine ⟨T3, z3, l1, fun h => (by cases h), fun hA => (l3 hA).imp (fun l3 => ?_) id⟩
      simp only [dumpColl, k4 hA, l3]
    | true =>
      rw [if_neg (by simp)]
      have l2 := l2 rfl
      subst l2
      obtain ⟨hT3, b3, o3, hd3, ho3, e3⟩ := l1
      refine hw_mono (hw_emits ht hg' hev' hT3 hd3 ho3 e3) ?_
      rintro r h' ⟨T4, z4, j1, j2, j3⟩
      refine ⟨T4, z4, j1, j2, fun hA => (j3 hA).imp (fun j3 => ?_) id⟩
      simp only [dumpColl, k4 hA, went (l3 hA), j3]

theorem hw_dumpNode (ht : Handles emit full owns good over f) (hgn : GoodNodes good nodes) (htags : ∀ nd ∈ nodes, CText nd.tag) (w fuel : Nat) :
    Sim A base full nodes hns na n aa owns over bs (dumpNode accept nodes fuel) (dumpNode (fun e t => f e.data t) nodes fuel)
      (hDumpNode emit ⟨some na, w⟩ (some aa) fuel) := by
  induction fuel with
  | zero => intro i T T' t z h hu; cases hu
  | succ fuel ih =>
    intro i T T' t v0 h hu hb
    simp only [dumpNode] at hu
    by_cases h0 : i = 0
    · rw [if_pos h0] at hu; cases hu
    · rw [if_neg h0] at hu
      cases hn : nodes[i - 1]? with
      | none => rw [hn] at hu; cases hu
      | some nd =>
        obtain ⟨hT, b, o, hd, ho, e⟩ := id hb
        obtain ⟨hn', a, x, rest, k1, k2, k3, k4, k5⟩ := dumpAt_access hd hn
        simp only [hn, k2] at hu
        have hlt : i - 1 < T.length := by
          rcases Nat.lt_or_ge (i - 1) T.length with h | h
          · exact h
          · rw [List.getElem?_eq_none h] at k2; cases k2
        have htag : CText nd.tag := htags nd (List.mem_of_getElem? hn)
        have ha := hT a (List.mem_of_getElem? k2)
        unfold hDumpNode
        rw [hw_bind]
        refine hw_node e List.mem_cons_self (by omega) k1 ?_
        rw [hw_bind]
        refine hw_anch e (.tail _ List.mem_cons_self) (by simpa using k2) ?_
        rw [hw_bind]
        refine hw_anchor e ha (fun h1 e1 hA => ?_) (fun h1 p y hy e1 => ?_)
        · dsimp only
          rw [if_pos (by rfl), hw_pure]
          exact ⟨T, v0, ⟨hT, b, o, hd, ht.weak _ _ _ ho, e1⟩, fun h => (by cases h), fun _ => .inr ⟨rfl, fun h => absurd h hA⟩⟩
        · dsimp only
          rw [if_neg (by simp), hw_ite]
          by_cases hser : a.serialized = true
          · rw [if_pos hser] at hu ⊢
            cases htext : anchorText a with
            | none => rw [htext] at hu; cases hu
            | some tx =>
              rw [htext] at hu hy
              simp only [emitEv, accept, Except.ok.injEq, Prod.mk.injEq, DState.mk.injEq, true_and, and_true] at hu
              subst hu
              have hga : good (.alias tx) := by
                unfold anchorText at htext
                split at htext
                · cases htext
                · cases htext
                  exact hgn.named _
              have := hw_emits (ev := .alias tx) ht hga ⟨p, rfl, hy⟩ hT hd ho e1
              refine hw_mono this ?_
              rintro r h' ⟨T4, z4, j1, j2, j3⟩
              refine ⟨T4, z4, j1, j2, fun hA => (j3 hA).imp (fun j3 => ?_) id⟩
              simp only [dumpNode, if_neg h0, hn, k2, if_pos hser, htext, j3]
          · rw [if_neg hser] at hu ⊢
            have hv : dumpNode (fun e t => f e.data t) nodes (fuel + 1) i ⟨T, v0⟩ =
                (match nd.data with
                | .scalar value style => .ok (emitEv (fun e t => f e.data t)
                    (.scalar (anchorText a) (some nd.tag) value (decide (nd.tag = strTag)) (decide (nd.tag = strTag)) style)
                    ⟨T.set (i - 1) { a with serialized := true }, v0⟩)
                | .sequence items style =>
                  dumpColl (fun e t => f e.data t) (.sequenceStart (anchorText a) (some nd.tag) (decide (nd.tag = seqTag)) style) .sequenceEnd
                    (dumpItems (dumpNode (fun e t => f e.data t) nodes fuel) items) ⟨T.set (i - 1) { a with serialized := true }, v0⟩
                | .mapping pairs style =>
                  dumpColl (fun e t => f e.data t) (.mappingStart (anchorText a) (some nd.tag) (decide (nd.tag = mapTag)) style) .mappingEnd
                    (dumpPairs (dumpNode (fun e t => f e.data t) nodes fuel) pairs) ⟨T.set (i - 1) { a with serialized := true }, v0⟩) := by
              simp only [dumpNode, if_neg h0, hn, k2, if_neg hser]
              cases nd.data <;> rfl
            rw [hv]
            clear hv
            have hT2 : ∀ c ∈ T.set (i - 1) { a with serialized := true }, c.anchor ≤ 2147483647 := by
              intro c hc
              rcases List.mem_or_eq_of_mem_set hc with hc | rfl
              · exact hT c hc
              · exact ha
            rw [hw_bind]
            refine hw_setAnch (T := T) (bs' := (na, stkObj hns n) :: (y ++ (b ++ (o ++ bs)))) e1 (by blocks) (by simpa using hlt) (fun h2 e2 => ?_)
            simp only [Int.ofNat_eq_natCast, Int.toNat_natCast] at e2
            have hsf : a.serialized = false := by simpa using hser
            have hgd := hgn.node nd (List.mem_of_getElem? hn) a
            rw [hsf] at k3
            simp only [DNodeAt, if_neg Bool.false_ne_true, NodeAt] at k3
            cases hdata : nd.data with
            | scalar v st =>
              simp only [hdata] at k3 hu hgd
              obtain ⟨p1, q1, x1, x2, rfl, s1, s2, rfl⟩ := k3
              simp only [emitEv, accept, Except.ok.injEq, Prod.mk.injEq, DState.mk.injEq, true_and, and_true] at hu
              subst hu
              obtain ⟨b', d1, d2⟩ := k5 { a with serialized := true } [] (by unfold DNodeAt; rw [if_pos (by rfl), hdata]; exact ⟨_, _, _, rfl, rfl⟩)
              dsimp only
              rw [hw_bind]
              refine hw_isTag e2 s1 (fun z hz => ?_) htag strTag_ascii ?_
              · refine .tail _ (.tail _ (List.mem_append_right _ (List.mem_append_left _ (k4.mem_iff.mpr ?_))))
                exact List.mem_append_left _ (List.mem_append_left _ hz)
              · rw [hw_bind]
                refine hw_isTag e2 s1 (fun z hz => ?_) htag strTag_ascii ?_
                · refine .tail _ (.tail _ (List.mem_append_right _ (List.mem_append_left _ (k4.mem_iff.mpr ?_))))
                  exact List.mem_append_left _ (List.mem_append_left _ hz)
                · refine hw_emits (ev := .scalar (anchorText a) (some nd.tag) v (decide (nd.tag = strTag)) (decide (nd.tag = strTag)) st) ht (hgd _ _)
                    ⟨p, p1, q1, y, x1, x2, rfl, hy, s1, s2, rfl⟩ hT2 d1 ho (e2.perm ?_)
                  have h4 := fun z => List.perm_iff_count.mp k4 z
                  have h5 := fun z => List.perm_iff_count.mp d2 z
                  rw [List.perm_iff_count]
                  intro z
                  have h4 := h4 z
                  have h5 := h5 z
                  simp only [List.count_append, List.count_cons, List.count_nil] at h4 h5 ⊢
                  omega
            | sequence items st =>
              simp only [hdata] at k3 hu hgd
              obtain ⟨p1, sa, m, x1, rfl, s1, s2, rfl⟩ := k3
              obtain ⟨b', d1, d2⟩ := k5 { a with serialized := true } [(sa, stkObj (items.map Int.ofNat) m)]
                (by unfold DNodeAt; rw [if_pos (by rfl), hdata]; exact ⟨_, _, m, rfl, rfl⟩)
              have hmem : ∀ T b, DumpAt nodes hns T b → ∃ m, (sa, stkObj (([] ++ items).map Int.ofNat) m) ∈ b := by
                intro T b k
                obtain ⟨a', m', g1, _, g3⟩ := dumpAt_items k hn hdata k1
                cases g1
                exact ⟨m', by simpa using g3⟩
              have hu2 : dumpItems (dumpNode accept nodes fuel) items ⟨T.set (i - 1) { a with serialized := true }, ()⟩ = .ok (true, ⟨T', ()⟩) := by
                unfold dumpColl at hu
                simp only [emitEv, accept] at hu
                revert hu
                generalize dumpItems _ items _ = r
                intro hu
                rcases r with _ | ⟨_ | _, _, _⟩
                · cases hu
                · cases hu
                · exact hu
              dsimp only
              rw [hw_bind]
              refine hw_isTag e2 s1 (fun z hz => ?_) htag seqTag_ascii ?_
              · refine .tail _ (.tail _ (List.mem_append_right _ (List.mem_append_left _ (k4.mem_iff.mpr ?_))))
                exact List.mem_append_left _ (by simp [hz])
              · refine hw_dumpColl (x := y ++ x1) ht (start := .sequenceStart (anchorText a) (some nd.tag) (decide (nd.tag = seqTag)) st) (stop := .sequenceEnd)
                  (hgd _) hgn.sequenceEnd ⟨p, p1, y, x1, rfl, hy, s1, rfl⟩ ⟨rfl, rfl⟩ (fun t' z' h' hb' => hw_dumpItems (pre := []) ih hmem hu2 hb') hT2 d1 ho (e2.perm ?_)
                have h4 := fun z => List.perm_iff_count.mp k4 z
                have h5 := fun z => List.perm_iff_count.mp d2 z
                rw [List.perm_iff_count]
                intro z
                have h4 := h4 z
                have h5 := h5 z
                simp only [List.count_append, List.count_cons, List.count_nil] at h4 h5 ⊢
                omega
            | mapping pairs st =>
              simp only [hdata] at k3 hu hgd
              obtain ⟨p1, sa, m, x1, rfl, s1, s2, rfl⟩ := k3
              obtain ⟨b', d1, d2⟩ := k5 { a with serialized := true } [(sa, stkObj (pairs.map fun x => (Int.ofNat x.1, Int.ofNat x.2)) m)]
                (by unfold DNodeAt; rw [if_pos (by rfl), hdata]; exact ⟨_, _, m, rfl, rfl⟩)
              have hmem : ∀ T b, DumpAt nodes hns T b → ∃ m, (sa, stkObj (([] ++ pairs).map fun x : Nat × Nat => (Int.ofNat x.1, Int.ofNat x.2)) m) ∈ b := by
                intro T b k
                obtain ⟨a', m', g1, _, g3⟩ := dumpAt_pairs k hn hdata k1
                cases g1
                exact ⟨m', by simpa using g3⟩
              have hu2 : dumpPairs (dumpNode accept nodes fuel) pairs ⟨T.set (i - 1) { a with serialized := true }, ()⟩ = .ok (true, ⟨T', ()⟩) := by
                unfold dumpColl at hu
                simp only [emitEv, accept] at hu
                revert hu
                generalize dumpPairs _ pairs _ = r
                intro hu
                rcases r with _ | ⟨_ | _, _, _⟩
                · cases hu
                · cases hu
                · exact hu
              dsimp only
              rw [hw_bind]
              refine hw_isTag e2 s1 (fun z hz => ?_) htag mapTag_ascii ?_
              · refine .tail _ (.tail _ (List.mem_append_right _ (List.mem_append_left _ (k4.mem_iff.mpr ?_))))
                exact List.mem_append_left _ (by simp [hz])
              · refine hw_dumpColl (x := y ++ x1) ht (start := .mappingStart (anchorText a) (some nd.tag) (decide (nd.tag = mapTag)) st) (stop := .mappingEnd)
                  (hgd _) hgn.mappingEnd ⟨p, p1, y, x1, rfl, hy, s1, rfl⟩ ⟨rfl, rfl⟩ (fun t' z' h' hb' => hw_dumpPairs (pre := []) ih hmem hu2 hb') hT2 d1 ho (e2.perm ?_)
                have h4 := fun z => List.perm_iff_count.mp k4 z
                have h5 := fun z => List.perm_iff_count.mp d2 z
                rw [List.perm_iff_count]
                intro z
                have h4 := h4 z
                have h5 := h5 z
                simp only [List.count_append, List.count_cons, List.count_nil] at h4 h5 ⊢
                omega

end

/-! ### `yaml_emitter_delete_document_and_anchors` -/

section
variable {A : Prop} {base : Nat → Option Obj} {bs : Blocks} {h : Heap} {na n aa : Nat}

theorem hw_freeChildren {nd : Node} {hn : HNode} {x : Blocks} {Q : Unit → Heap → Prop} (hd : DNodeAt nd hn true x) (e : Ext A base (x ++ bs) h)
    (hQ : ∀ h', Ext A base bs h' → Q () h') : hw (hFreeChildren hn) Q h := by
  unfold DNodeAt at hd
  rw [if_pos (by rfl)] at hd
  cases hdata : nd.data with
  | scalar v st =>
    rw [hdata] at hd
    obtain ⟨p, q, m, rfl, rfl⟩ := hd
    exact hQ _ e
  | sequence items st =>
    rw [hdata] at hd
    obtain ⟨p, a, m, rfl, rfl⟩ := hd
    exact hw_free e (List.Perm.refl _) hQ
  | mapping pairs st =>
    rw [hdata] at hd
    obtain ⟨p, a, m, rfl, rfl⟩ := hd
    exact hw_free e (List.Perm.refl _) hQ

theorem hw_freeStrings {nd : Node} {hn : HNode} {x : Blocks} {Q : Unit → Heap → Prop} (hd : DNodeAt nd hn false x) (e : Ext A base (x ++ bs) h)
    (hQ : ∀ h' x', DNodeAt nd hn true x' → Ext A base (x' ++ bs) h' → Q () h') : hw (hFreeStrings hn) Q h := by
  simp only [DNodeAt, if_neg Bool.false_ne_true, NodeAt] at hd
  simp only [DNodeAt, if_pos] at hQ
  cases hdata : nd.data with
  | scalar v st =>
    rw [hdata] at hd hQ
    obtain ⟨p, q, x, y, rfl, s1, s2, rfl⟩ := hd
    unfold hFreeStrings
    rw [hw_bind]
    refine hw_free_str (bs' := y ++ bs) e s1 (by blocks) (fun h' e' => ?_)
    exact hw_free_str e' s2 (List.Perm.refl _) (fun h' e' => hQ h' [] ⟨p, q, _, rfl, rfl⟩ e')
  | sequence items st =>
    rw [hdata] at hd hQ
    obtain ⟨p, a, m, x, rfl, s1, _, rfl⟩ := hd
    unfold hFreeStrings
    exact hw_free_str (bs' := (a, stkObj (items.map Int.ofNat) m) :: bs) e s1 (by blocks) (fun h' e' => hQ h' _ ⟨p, a, m, rfl, rfl⟩ e')
  | mapping pairs st =>
    rw [hdata] at hd hQ
    obtain ⟨p, a, m, x, rfl, s1, _, rfl⟩ := hd
    unfold hFreeStrings
    exact hw_free_str (bs' := (a, stkObj (pairs.map fun x : Nat × Nat => (Int.ofNat x.1, Int.ofNat x.2)) m) :: bs) e s1 (by blocks)
      (fun h' e' => hQ h' _ ⟨p, a, m, rfl, rfl⟩ e')

theorem hw_freeDumped {nds : List Node} {pre rest : List HNode} {preT restT : List Anch} {b : Blocks} {w : Nat} {Q : Unit → Heap → Prop}
    (hl : pre.length = preT.length) (hd : DumpAt nds rest restT b)
    (e : Ext A base ((na, stkObj (pre ++ rest) n) :: (aa, .anchs (preT ++ restT)) :: (b ++ bs)) h)
    (hQ : ∀ h', Ext A base ((na, stkObj (pre ++ rest) n) :: (aa, .anchs (preT ++ restT)) :: bs) h' → Q () h') :
    hw (hFreeDumped ⟨some na, w⟩ (some aa) nds.length pre.length) Q h := by
  induction nds generalizing pre rest preT restT b h with
  | nil =>
    obtain ⟨rfl, rfl, rfl⟩ := hd
    exact hQ _ e
  | cons nd nds ih =>
    obtain ⟨hn, rest', a, T', x, b', rfl, rfl, j1, j2, rfl⟩ := hd
    rw [List.length_cons]
    unfold hFreeDumped
    rw [hw_bind]
    refine hw_get e List.mem_cons_self (v := hn) (by simp) ?_
    rw [hw_bind]
    refine hw_anch e (.tail _ List.mem_cons_self) (a := a) (by rw [hl]; simp) ?_
    have next : ∀ h' x', DNodeAt nd hn true x' →
        Ext A base (x' ++ ((na, stkObj (pre ++ hn :: rest') n) :: (aa, .anchs (preT ++ a :: T')) :: (b' ++ bs))) h' →
        hw (do hFreeChildren hn; hFreeDumped ⟨some na, w⟩ (some aa) nds.length (pre.length + 1)) Q h' := by
      intro h' x' d' e'
      rw [hw_bind]
      refine hw_freeChildren d' e' (fun h2 e2 => ?_)
      have := ih (pre := pre ++ [hn]) (preT := preT ++ [a]) (h := h2) (by simp [hl]) j2 (by simpa using e2) (by simpa using hQ)
      rw [List.length_append] at this
      exact this
    rw [hw_bind]
    by_cases hs : a.serialized = true
    · rw [if_pos hs, hw_pure]
      rw [hs] at j1
      exact next h x j1 (e.perm (by blocks))
    · rw [if_neg hs]
      have hs : a.serialized = false := by simpa using hs
      rw [hs] at j1
      exact hw_freeStrings j1 (e.perm (by blocks)) (fun h' x' d' e' => next h' x' d' e')

/-- The document with a table of anchors. -/
theorem hw_deleteDumped {d : HDoc} {nodes : List Node} {hns : List HNode} {T : List Anch} {b : Blocks} {s : HDumper τ} {Q : HDumper τ → Heap → Prop}
    (hd : DumpAt nodes hns T b) (hn : d.nodes = ⟨some na, hns.length⟩) (hs : s.anchors = some aa)
    (e : Ext A base ((na, stkObj hns n) :: (aa, .anchs T) :: (b ++ bs)) h) (hQ : ∀ h', Ext A base bs h' → Q { s with anchors := none, last := 0 } h') :
    hw (hDeleteDumped d s) Q h := by
  unfold hDeleteDumped
  rw [if_neg (by rw [hs]; simp), hs, hn]
  dsimp only
  rw [hw_bind, (dumpAt_length hd).1]
  refine hw_freeDumped (pre := []) (preT := []) rfl hd e (fun h1 e1 => ?_)
  rw [hw_bind]
  refine hw_free e1 (List.Perm.refl _) (fun h2 e2 => ?_)
  rw [hw_bind]
  refine hw_free e2 (List.Perm.refl _) (fun h3 e3 => ?_)
  rw [hw_pure]
  exact hQ h3 e3

/-- A document without one. -/
theorem hw_deleteDoc {d : Doc} {hd : HDoc} {b : Blocks} {s : HDumper τ} {Q : HDumper τ → Heap → Prop} (ha : DocAt d hd b) (hs : s.anchors = none)
    (e : Ext A base (b ++ bs) h) (hQ : ∀ h', Ext A base bs h' → Q s h') : hw (hDeleteDumped hd s) Q h := by
  unfold hDeleteDumped
  rw [if_pos (by rw [hs]; rfl), hw_bind]
  exact hw_documentDelete e ha hQ

end

/-! ### `yaml_emitter_dump` -/

/-- The dumper on values. -/
def HDumper.view (s : HDumper τ) : Dumper τ := ⟨s.opened, s.closed, s.last, s.out⟩

/-- The same, if the emitter stands for the value `v`. -/
def HDumper.see (s : HDumper τ) (v : σ) : Dumper σ := ⟨s.opened, s.closed, s.last, v⟩

/-- All events of the document are good. -/
structure GoodDoc (good : EvData → Prop) (d : Doc) : Prop where
  streamStart : good (.streamStart none)
  streamEnd : good .streamEnd
  start : good (.documentStart d.version d.tags d.startImplicit)
  stop : good (.documentEnd d.endImplicit)
  nodes : GoodNodes good d.nodes

section
variable {A : Prop} {base : Nat → Option Obj} {bs : Blocks} {h : Heap} {emit : HEvent → τ → HM (Bool × τ)} {full : Prop} {owns : Bool → τ → σ → Blocks → Prop}
  {good : EvData → Prop} {over : σ → Prop} {f : EvData → σ → Bool × σ}

theorem hw_dOpen (ht : Handles emit full owns good over f) {s : HDumper τ} {v : σ} {o : Blocks} (hg : good (.streamStart none)) (hs : s.opened = false) (ho : owns true s.out v o)
    (e : Ext A base (o ++ bs) h) :
    hw (hOpen emit s) (fun r h' => ∃ v' o', owns r.1 r.2.out v' o' ∧ Ext A base (o' ++ bs) h' ∧ r.2.anchors = s.anchors ∧ r.2.last = s.last ∧
      (r.1 = true → r.2.opened = true) ∧ (full ∨ A → dOpen (fun e t => f e.data t) (s.see v) = .ok (r.1, r.2.see v') ∨ (r.1 = false ∧ (A → over v')))) h := by
  unfold hOpen
  rw [hw_bind]
  refine hw_assertH (by rw [hs]; rfl) ?_
  rw [hw_bind]
  refine hw_mono (ht.step A base bs h (.streamStart none) _ [] s.out v o hg ⟨rfl, rfl⟩ ho e) ?_
  rintro ⟨ok, out⟩ h' ⟨v', o', h1, h2, h3⟩
  dsimp only at h1 h3 ⊢
  cases ok with
  | true =>
    refine ⟨v', o', h1, h2, rfl, rfl, fun _ => rfl, fun hA => (h3 hA).imp (fun h3 => ?_) id⟩
    simp [dOpen, HDumper.see, hs, ← h3]
  | false =>
    refine ⟨v', o', h1, h2, rfl, rfl, fun h => (by cases h), fun hA => (h3 hA).imp (fun h3 => ?_) id⟩
    simp [dOpen, HDumper.see, hs, ← h3]

theorem hw_dClose (ht : Handles emit full owns good over f) {s : HDumper τ} {v : σ} {o : Blocks} (hg : good .streamEnd) (hs : s.opened = true) (ho : owns true s.out v o)
    (e : Ext A base (o ++ bs) h) :
    hw (hCloseDump emit s) (fun r h' => ∃ v' o', owns r.1 r.2.out v' o' ∧ Ext A base (o' ++ bs) h' ∧ r.2.anchors = s.anchors ∧ r.2.last = s.last ∧
      (full ∨ A → dClose (fun e t => f e.data t) (s.see v) = .ok (r.1, r.2.see v') ∨ (r.1 = false ∧ (A → over v')))) h := by
  unfold hCloseDump
  rw [hw_bind]
  refine hw_assertH hs ?_
  rw [hw_ite]
  by_cases hc : s.closed = true
  · rw [if_pos hc, hw_pure]
    refine ⟨v, o, ho, e, rfl, rfl, fun _ => .inl ?_⟩
    simp [dClose, HDumper.see, hs, hc]
  · rw [if_neg hc, hw_bind]
    refine hw_mono (ht.step A base bs h .streamEnd _ [] s.out v o hg ⟨rfl, rfl⟩ ho e) ?_
    rintro ⟨ok, out⟩ h' ⟨v', o', h1, h2, h3⟩
    dsimp only at h1 h3 ⊢
    cases ok with
    | true =>
      refine ⟨v', o', h1, h2, rfl, rfl, fun hA => (h3 hA).imp (fun h3 => ?_) id⟩
      simp [dClose, HDumper.see, hs, hc, ← h3]
    | false =>
      refine ⟨v', o', h1, h2, rfl, rfl, fun hA => (h3 hA).imp (fun h3 => ?_) id⟩
      simp [dClose, HDumper.see, hs, hc, ← h3]

/-- What the dump of a graph does on values. -/
theorem dump_tables {nodes : List Node} (hg : GraphOk nodes) (hne : nodes ≠ []) (hmax : nodes.length ≤ 2147483647) {fuel : Nat} (hf : nodes.length < fuel) :
    ∃ a T', anchorNode nodes fuel 1 ⟨List.replicate nodes.length {}, 0⟩ = .ok a ∧ (∀ c ∈ a.anchors, c.anchor ≤ 2147483647) ∧
      dumpNode accept nodes fuel 1 ⟨a.anchors, ()⟩ = .ok (true, ⟨T', ()⟩) := by
  obtain ⟨w, S, hw⟩ := root_walk hg hne
  have ha := anchor_walk hw [] fuel (by simpa using hf) .nil (by simp) (by simp)
  rw [aState_nil] at ha
  have ha' : anchorNode nodes fuel 1 { anchors := List.replicate nodes.length {}, last := 0 } = .ok (aState nodes.length (refs w)) := by
    simp only [forItems, List.nil_append] at ha
    cases h : anchorNode nodes fuel 1 { anchors := List.replicate nodes.length {}, last := 0 } with
    | error e => rw [h] at ha; cases ha
    | ok a => rw [h] at ha; exact ha
  have htab : (aState nodes.length (refs w)).anchors = dTab nodes.length (fun i => (refs w).count i) (number (twice [] (refs w))) [] := by
    simp [aState, dTab]
  have hd := dump_walk hw accept (fun i => (refs w).count i) (number (twice [] (refs w))) (fun i hi => again_number hw hi) fuel
    (by simpa using hf) .nil (by simp) ()
  refine ⟨_, dTab nodes.length (fun i => (refs w).count i) (number (twice [] (refs w))) S, ha', ?_, ?_⟩
  · intro c hc
    rw [htab] at hc
    simp only [dTab, tab, List.mem_map] at hc
    obtain ⟨i, _, rfl⟩ := hc
    refine Nat.le_trans (number_le _ _) (Nat.le_trans (nodup_length (N := nodes.length) (twice_nodup _) ?_) hmax)
    intro j hj
    have hc := (mem_twice _ _).mp hj
    have hm : j ∈ refs w := List.count_pos_iff.mp (by omega)
    exact walk_valid hw (by simp) j ((walk_refs hw j).mpr (.inr hm))
  · have hfeed : ∀ (l : List EvData), feedEvs accept l () = (true, ()) := by
      intro l
      induction l with
      | nil => rfl
      | cons x l ih => simp only [feedEvs, accept]; exact ih
    obtain ⟨s', h1, h2, h3⟩ := hd
    rw [hfeed] at h1 h2 h3
    rw [htab]
    simp only [dumpItems] at h1
    cases h : dumpNode accept nodes fuel 1 ⟨dTab nodes.length (fun i => (refs w).count i) (number (twice [] (refs w))) [], ()⟩ with
    | error e => rw [h] at h1; cases h1
    | ok r =>
      obtain ⟨ok, s1⟩ := r
      rw [h] at h1
      cases ok with
      | false => cases h1
      | true =>
        cases h1
        rw [← h3 rfl]

/-- How the dump ends. -/
def Dumps (A : Prop) (base : Nat → Option Obj) (full : Prop) (owns : Bool → τ → σ → Blocks → Prop) (over : σ → Prop) (bs : Blocks) (v : Except Fail (Bool × Dumper σ))
    (r : Bool × HDumper τ) (h : Heap) : Prop :=
  ∃ v' o, owns r.1 r.2.out v' o ∧ Ext A base (o ++ bs) h ∧ r.2.anchors = none ∧ r.2.last = 0 ∧ (full ∨ A → v = .ok (r.1, r.2.see v') ∨ (r.1 = false ∧ (A → over v')))

theorem hw_dumpDoc (ht : Handles emit full owns good over f) {d : Doc} (hgd : GoodDoc good d) {hd : HDoc} {v : σ} {o : Blocks} {s : HDumper τ} {fuel na n : Nat} {hns : List HNode} {b1 b2 b3 : Blocks}
    (hn : hd.nodes = ⟨some na, hns.length⟩) (k1 : NodesAt d.nodes hns b1) (k2 : VersionAt d.version hd.version b2) (k3 : TagsAt (d.tags.map dirText) hd.tags b3)
    (k4 : hd.startImplicit = d.startImplicit) (k5 : hd.endImplicit = d.endImplicit)
    (hg : GraphOk d.nodes) (hne : d.nodes ≠ []) (hmax : d.nodes.length ≤ 2147483647) (hf : d.nodes.length < fuel) (htags : ∀ nd ∈ d.nodes, CText nd.tag)
    {aa : Nat} (hs : s.anchors = some aa) (hl : s.last = 0) (ho : owns true s.out v o)
    (e : Ext A base ((na, stkObj hns n) :: (aa, .anchs (List.replicate hns.length {})) :: (b1 ++ (b2 ++ (b3 ++ (o ++ bs))))) h) :
    hw (do let (ok, s) ← hDumpBody emit fuel hd s; return (ok, ← hDeleteDumped hd s))
      (Dumps A base full owns over bs (dumpNodes (fun e t => f e.data t) fuel d (s.see v))) h := by
  obtain ⟨a, T', ha, hbound, hdump⟩ := dump_tables hg hne hmax hf
  have hlen := nodesAt_length k1
  have hd0 := dumpAt_start k1
  rw [hw_bind]
  unfold hDumpBody
  rw [hw_bind]
  refine hw_mono (ht.step A base ((na, stkObj hns n) :: (aa, .anchs (List.replicate hns.length {})) :: (b1 ++ bs)) h (.documentStart d.version d.tags d.startImplicit)
    _ (b2 ++ b3) s.out v o hgd.start ⟨hd.version, hd.tags, b2, b3, by rw [k4], k2, k3, rfl⟩ ho (e.perm (by blocks))) ?_
  rintro ⟨ok, out⟩ h1 ⟨v1, o1, p1, p2, p3⟩
  dsimp only at p1 p3 ⊢
  cases ok with
  | false =>
    rw [if_pos (by rfl), hw_pure]
    dsimp only
    rw [hw_bind]
    refine hw_deleteDumped (n := n) (bs := o1 ++ bs) hd0 hn hs (p2.perm (by blocks)) (fun h2 e2 => ?_)
    rw [hw_pure]
    refine ⟨v1, o1, p1, e2, rfl, rfl, fun hA => (p3 hA).imp (fun p3 => ?_) id⟩
    simp only [dumpNodes, HDumper.see, ← p3]
  | true =>
    rw [if_neg (by simp), hw_bind, hn, hs, hl]
    rw [hlen] at hd0 p2
    have hcount := hw_anchorNode (A := A) (base := base) (nodes := d.nodes) (hns := hns) (na := na) (n := n) (aa := aa) (t := hns.length) (bs := o1 ++ bs) fuel
      (b := b1) 1 ⟨List.replicate d.nodes.length {}, 0⟩ a h1 ha ⟨hd0, p2.perm (by blocks)⟩
    refine hw_mono hcount ?_
    rintro l h2 ⟨rfl, q1, q2⟩
    rw [hw_bind]
    refine hw_mono (hw_dumpNode ht hgd.nodes htags hns.length fuel 1 a.anchors T' out v1 h2 hdump ⟨hbound, b1, o1, q1, p1, q2⟩) ?_
    rintro ⟨ok, out2⟩ h3 ⟨T2, v2, ⟨_, b4, o4, r1, r2, r3⟩, _, r5⟩
    dsimp only at r2 r3 r5 ⊢
    cases ok with
    | false =>
      rw [if_pos (by rfl), hw_pure]
      dsimp only
      rw [hw_bind]
      refine hw_deleteDumped (n := n) (bs := o4 ++ bs) r1 hn rfl r3 (fun h2 e2 => ?_)
      rw [hw_pure]
      refine ⟨v2, o4, r2, e2, rfl, rfl, fun hA => (r5 hA).imp (fun r5 => ?_) id⟩
      simp only [dumpNodes, HDumper.see, ← went (p3 hA), hl, ha, r5]
    | true =>
      rw [if_neg (by simp), hw_bind]
      refine hw_mono (ht.step A base ((na, stkObj hns n) :: (aa, .anchs T2) :: (b4 ++ bs)) h3 (.documentEnd d.endImplicit) _ [] out2 v2 o4 hgd.stop ⟨by rw [k5], rfl⟩ r2
        (r3.perm (by blocks))) ?_
      rintro ⟨ok, out3⟩ h4 ⟨v3, o5, s1, s2, s3⟩
      dsimp only at s1 s3 ⊢
      rw [hw_pure]
      dsimp only
      rw [hw_bind]
      refine hw_deleteDumped (n := n) (bs := o5 ++ bs) r1 hn rfl (s2.perm (by blocks)) (fun h2 e2 => ?_)
      rw [hw_pure]
      refine ⟨v3, o5, s1, e2, rfl, rfl, fun hA => (s3 hA).imp (fun s3 => ?_) id⟩
      simp only [dumpNodes, HDumper.see, ← went (p3 hA), hl, ha, went (r5 hA), ← s3]

theorem hw_dump (ht : Handles emit full owns good over f) {d : Doc} (hgd : GoodDoc good d) {hd : HDoc} {v : σ} {b o : Blocks} {s : HDumper τ} {fuel : Nat} (hdoc : DocAt d hd b) (hg : GraphOk d.nodes)
    (hmax : d.nodes.length ≤ 2147483647) (hf : d.nodes.length < fuel) (htags : ∀ nd ∈ d.nodes, CText nd.tag) (hs : s.anchors = none) (hl : s.last = 0)
    (ho : owns true s.out v o) (e : Ext A base (b ++ (o ++ bs)) h) :
    hw (hDump emit fuel hd s) (Dumps A base full owns over bs (dump (fun e t => f e.data t) fuel d (s.see v))) h := by
  obtain ⟨na, n, hns, b1, b2, b3, hn, k1, k2, k3, k4, k5, k6, rfl⟩ := id hdoc
  have hlen := nodesAt_length k1
  unfold hDump
  rw [hw_bind]
  have hopen : hw (if s.opened then return (true, s) else hOpen emit s : HM (Bool × HDumper τ)) (fun r h' => ∃ v' o', owns r.1 r.2.out v' o' ∧
      Ext A base (o' ++ (((na, stkObj hns n) :: (b1 ++ (b2 ++ b3))) ++ bs)) h' ∧ r.2.anchors = none ∧ r.2.last = 0 ∧ (r.1 = true → r.2.opened = true) ∧
      (full ∨ A → (if (s.see v).opened then .ok (true, s.see v) else dOpen (fun e t => f e.data t) (s.see v)) = .ok (r.1, r.2.see v') ∨ (r.1 = false ∧ (A → over v')))) h := by
    rw [hw_ite]
    by_cases hop : s.opened = true
    · rw [if_pos hop, hw_pure]
      refine ⟨v, o, ho, e.perm (by blocks), hs, hl, fun _ => hop, fun _ => .inl ?_⟩
      rw [if_pos (by exact hop)]
    · rw [if_neg hop]
      refine hw_mono (hw_dOpen (bs := ((na, stkObj hns n) :: (b1 ++ (b2 ++ b3))) ++ bs) ht hgd.streamStart (by simpa using hop) ho (e.perm (by blocks))) ?_
      rintro r h' ⟨v', o', h1, h2, h3, h4, h5, h6⟩
      refine ⟨v', o', h1, h2, h3.trans hs, h4.trans hl, h5, fun hA => ?_⟩
      rw [if_neg (by exact hop)]
      exact h6 hA
  refine hw_mono hopen ?_
  rintro ⟨ok, s1⟩ h1 ⟨v1, o1, p1, p2, p3, p4, p5, p6⟩
  dsimp only at p1 p3 p4 p5 p6 ⊢
  cases ok with
  | false =>
    rw [if_pos (by rfl), hw_bind]
    refine hw_deleteDoc hdoc p3 (p2.perm (bs' := ((na, stkObj hns n) :: (b1 ++ (b2 ++ b3))) ++ (o1 ++ bs)) (by blocks)) (fun h2 e2 => ?_)
    rw [hw_pure]
    refine ⟨v1, o1, p1, e2, p3, p4, fun hA => (p6 hA).imp (fun p6 => ?_) id⟩
    simp only [dump, p6]
  | true =>
    rw [if_neg (by simp), hw_ite]
    have p5 := p5 rfl
    by_cases hz : hd.nodes.top = 0
    · rw [if_pos hz, hw_bind]
      have hnil : d.nodes = [] := by
        rw [hn] at hz
        exact List.length_eq_zero_iff.mp (hlen ▸ hz)
      refine hw_mono (hw_dClose ht hgd.streamEnd p5 p1 p2) ?_
      rintro ⟨ok, s2⟩ h2 ⟨v2, o2, q1, q2, q3, q4, q5⟩
      dsimp only at q1 q3 q4 q5 ⊢
      rw [hw_bind]
      refine hw_deleteDoc hdoc (q3.trans p3) (q2.perm (bs' := ((na, stkObj hns n) :: (b1 ++ (b2 ++ b3))) ++ (o2 ++ bs)) (by blocks)) (fun h2 e2 => ?_)
      rw [hw_pure]
      refine ⟨v2, o2, q1, e2, q3.trans p3, q4.trans p4, fun hA => (q5 hA).imp (fun q5 => ?_) id⟩
      simp only [dump, went (p6 hA), hnil, if_pos, q5]
    · rw [if_neg hz, hw_bind]
      have hne : d.nodes ≠ [] := by
        intro h
        rw [hn] at hz
        rw [h] at hlen
        exact hz hlen
      refine hw_malloc p2 (fun h2 e2 hA => ?_) (fun h2 aa e2 => ?_)
      · rw [if_pos (by rfl), hw_bind]
        refine hw_deleteDoc hdoc rfl (e2.perm (bs' := ((na, stkObj hns n) :: (b1 ++ (b2 ++ b3))) ++ (o1 ++ bs)) (by blocks)) (fun h2 e2 => ?_)
        rw [hw_pure]
        exact ⟨v1, o1, ht.weak _ _ _ p1, e2, rfl, p4, fun _ => .inr ⟨rfl, fun h => absurd h hA⟩⟩
      · rw [if_neg (by simp)]
        rw [hn] at e2
        refine hw_mono (hw_dumpDoc (n := n) (bs := bs) (s := { s1 with anchors := some aa }) ht hgd hn k1 k2 k3 k4 k5 hg hne hmax hf htags rfl p4 p1 (e2.perm (by blocks))) ?_
        rintro r h3 ⟨v3, o3, q1, q2, q3, q4, q5⟩
        refine ⟨v3, o3, q1, q2, q3, q4, fun hA => ?_⟩
        simp only [dump, went (p6 hA), if_neg hne]
        exact q5 hA

end

/-- `yaml_event_delete` frees the blocks of an event. -/
theorem hw_dropEvent {A : Prop} {base : Nat → Option Obj} {bs : Blocks} {h : Heap} {ev : EvData} {he : HEvent} {b : Blocks} {Q : Unit → Heap → Prop}
    (e : Ext A base (b ++ bs) h) (hh : EventAt ev he b) (hQ : ∀ h', Ext A base bs h' → Q () h') : hw (eventDelete he) Q h := by
  cases ev with
  | streamStart x => obtain ⟨rfl, rfl⟩ := hh; exact hQ h e
  | streamEnd => obtain ⟨rfl, rfl⟩ := hh; exact hQ h e
  | documentEnd x => obtain ⟨rfl, rfl⟩ := hh; exact hQ h e
  | sequenceEnd => obtain ⟨rfl, rfl⟩ := hh; exact hQ h e
  | mappingEnd => obtain ⟨rfl, rfl⟩ := hh; exact hQ h e
  | documentStart v ts i =>
    obtain ⟨p, s, b1, b2, rfl, k1, k2, rfl⟩ := hh
    unfold eventDelete
    rw [hw_bind]
    refine hw_free_version (bs' := b2 ++ bs) e k1 (by blocks) (fun g e1 => ?_)
    exact hw_freeTags e1 k2 (List.Perm.refl _) hQ
  | «alias» a =>
    obtain ⟨p, rfl, k⟩ := hh
    exact hw_free_str e k (List.Perm.refl _) hQ
  | scalar a t v pl q st =>
    obtain ⟨p1, p2, p3, b1, b2, b3, rfl, k1, k2, k3, rfl⟩ := hh
    unfold eventDelete
    rw [hw_bind]
    refine hw_free_str (bs' := b2 ++ (b3 ++ bs)) e k1 (by blocks) (fun g e1 => ?_)
    rw [hw_bind]
    refine hw_free_str e1 k2 (List.Perm.refl _) (fun g e2 => ?_)
    exact hw_free_str e2 k3 (List.Perm.refl _) hQ
  | sequenceStart a t i st =>
    obtain ⟨p1, p2, b1, b2, rfl, k1, k2, rfl⟩ := hh
    unfold eventDelete
    rw [hw_bind]
    refine hw_free_str (bs' := b2 ++ bs) e k1 (by blocks) (fun g e1 => ?_)
    exact hw_free_str e1 k2 (List.Perm.refl _) hQ
  | mappingStart a t i st =>
    obtain ⟨p1, p2, b1, b2, rfl, k1, k2, rfl⟩ := hh
    unfold eventDelete
    rw [hw_bind]
    refine hw_free_str (bs' := b2 ++ bs) e k1 (by blocks) (fun g e1 => ?_)
    exact hw_free_str e1 k2 (List.Perm.refl _) hQ

end LibYaml
