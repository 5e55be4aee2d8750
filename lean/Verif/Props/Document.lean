import Verif.Model.Document
import Verif.Proofs.Writer

/-!
# C16, C17: the document API
-/

namespace LibYaml

open Spec

/-! ### Text arguments -/

theorem decodeText_iff (fuel : Nat) (bytes : List UInt8) (cs : Text) (hf : bytes.length ≤ fuel) :
    decodeText fuel bytes = some cs ↔ bytes = utf8s cs ∧ ∀ c ∈ cs, c < 0x200000 := by
  induction fuel generalizing bytes cs with
  | zero =>
    have : bytes = [] := by simpa using hf
    subst this
    constructor
    · intro h; simp [decodeText] at h; subst h; exact ⟨rfl, by simp⟩
    · rintro ⟨h, _⟩
      cases cs with
      | nil => rfl
      | cons c cs =>
        have := utf8_length_pos c
        have hl := congrArg List.length h
        rw [utf8s_cons, List.length_append, List.length_nil] at hl; omega
  | succ fuel ih =>
    match bytes with
    | [] =>
      constructor
      · intro h; simp [decodeText] at h; subst h; exact ⟨rfl, by simp⟩
      · rintro ⟨h, _⟩
        cases cs with
        | nil => rfl
        | cons c cs =>
          have := utf8_length_pos c
          have hl := congrArg List.length h
          rw [utf8s_cons, List.length_append, List.length_nil] at hl; omega
    | b :: rest =>
      have hval : ∀ c r, c < 0x200000 → b :: rest = utf8 c ++ r →
          foldTrail (leadBits b.toNat) (rest.take (width b.toNat - 1)) = c := by
        intro c r hc he
        obtain ⟨b', t, h1, h2, h3, _⟩ := utf8_parts c hc
        rw [h1, List.cons_append] at he
        injection he with e1 e2
        subst e1 e2
        rw [h2, Nat.add_sub_cancel, List.take_left]
        exact trailing_fold (h3 0)
      simp only [decodeText]
      constructor
      · intro h
        split at h
        · cases h
        · rename_i r hr
          obtain ⟨c, hc, he⟩ := checkStep_some hr
          have hl := congrArg List.length he
          have := utf8_length_pos c
          rw [List.length_append] at hl
          split at h
          · cases h
          · rename_i cs' hcs
            obtain ⟨h1, h2⟩ := (ih r cs' (by simp only [List.length_cons] at *; omega)).mp hcs
            injection h with h
            rw [hval c r hc he] at h
            subst h
            refine ⟨by rw [utf8s_cons, he, h1], ?_⟩
            intro x hx
            rcases List.mem_cons.mp hx with rfl | hx
            · exact hc
            · exact h2 x hx
      · rintro ⟨h1, h2⟩
        cases cs with
        | nil => simp [utf8s] at h1
        | cons c cs =>
          rw [utf8s_cons] at h1
          have hc := h2 c (by simp)
          have hv := hval c _ hc h1
          have hl := congrArg List.length h1
          have := utf8_length_pos c
          rw [List.length_append] at hl
          have hrec := (ih (utf8s cs) cs (by simp only [List.length_cons] at *; omega)).mpr
            ⟨rfl, fun x hx => h2 x (by simp [hx])⟩
          have hst : checkStep (b :: rest) = some (utf8s cs) := by rw [h1]; exact checkStep_utf8 c _ hc
          rw [hst]
          simp only [hrec, hv]

/-- A text argument is accepted iff `yaml_check_utf8` accepts it, and the stored text is the one it encodes. -/
theorem apiText_iff (bytes : List UInt8) (cs : Text) :
    apiText bytes = some cs ↔ bytes = utf8s cs ∧ ∀ c ∈ cs, c < 0x200000 :=
  decodeText_iff _ _ _ (Nat.le_refl _)

theorem apiText_isSome (bytes : List UInt8) : (apiText bytes).isSome = checkUtf8 bytes := by
  have h := checkLoop_iff bytes.length bytes (Nat.le_refl _)
  cases hc : checkUtf8 bytes with
  | true =>
    obtain ⟨cs, h1, h2⟩ := h.mp hc
    rw [(apiText_iff bytes cs).mpr ⟨h1, h2⟩]; rfl
  | false =>
    cases ht : apiText bytes with
    | none => rfl
    | some cs =>
      obtain ⟨h1, h2⟩ := (apiText_iff bytes cs).mp ht
      have : checkUtf8 bytes = true := h.mpr ⟨cs, h1, h2⟩
      rw [hc] at this; cases this

/-! ### Specification -/

/-- What an id keeps denoting: same tag, marks, kind, style and value; collections only grow at the end. -/
def SameNode (a b : Node) : Prop :=
  a.tag = b.tag ∧ a.start = b.start ∧ a.stop = b.stop ∧
  match a.data, b.data with
  | .scalar v s, .scalar v' s' => v = v' ∧ s = s'
  | .sequence l s, .sequence l' s' => l <+: l' ∧ s = s'
  | .mapping l s, .mapping l' s' => l <+: l' ∧ s = s'
  | _, _ => False

/-- Every id stored in the document denotes a node of the document. -/
def DocOK (d : Doc) : Prop :=
  ∀ nd ∈ d.nodes, match nd.data with
    | .scalar _ _ => True
    | .sequence items _ => ∀ i ∈ items, 1 ≤ i ∧ i ≤ d.nodes.length
    | .mapping pairs _ => ∀ p ∈ pairs, (1 ≤ p.1 ∧ p.1 ≤ d.nodes.length) ∧ (1 ≤ p.2 ∧ p.2 ≤ d.nodes.length)

/-- The call adds a node (as opposed to appending to one). -/
def DOp.adds : DOp → Bool
  | .addScalar .. | .addSequence .. | .addMapping .. => true
  | _ => false

/-- The ids handed out by a history: the positive results of the `add` calls. -/
def idsOf : List DOp → List Int → List Int
  | op :: ops, r :: rs => if op.adds && decide (r ≠ 0) then r :: idsOf ops rs else idsOf ops rs
  | _, _ => []

/-! ### Facts about single calls -/

theorem sameNode_refl (a : Node) : SameNode a a := by
  unfold SameNode
  obtain ⟨tag, data, s, e⟩ := a
  cases data <;> simp

theorem sameNode_trans {a b c : Node} (h1 : SameNode a b) (h2 : SameNode b c) : SameNode a c := by
  obtain ⟨t1, d1, s1, e1⟩ := a
  obtain ⟨t2, d2, s2, e2⟩ := b
  obtain ⟨t3, d3, s3, e3⟩ := c
  unfold SameNode at *
  obtain ⟨a1, a2, a3, a4⟩ := h1
  obtain ⟨b1, b2, b3, b4⟩ := h2
  refine ⟨a1.trans b1, a2.trans b2, a3.trans b3, ?_⟩
  cases d1 <;> cases d2 <;> first | exact a4.elim | skip
  all_goals cases d3 <;> first | exact b4.elim | skip
  · exact ⟨a4.1.trans b4.1, a4.2.trans b4.2⟩
  · exact ⟨List.IsPrefix.trans a4.1 b4.1, a4.2.trans b4.2⟩
  · exact ⟨List.IsPrefix.trans a4.1 b4.1, a4.2.trans b4.2⟩

/-- The possible effects of a call. -/
inductive Effect (d : Doc) : DOp → Int → Doc → Prop
  | refused (op) : Effect d op 0 d
  | added (op) (nd : Node) : op.adds = true →
      (match nd.data with | .sequence i _ => i = [] | .mapping p _ => p = [] | _ => True) →
      Effect d op (d.nodes.length + 1 : Nat) { d with nodes := d.nodes ++ [nd] }
  | item (s i : Nat) (ok) (tag items style start stop) : 1 ≤ i → i ≤ d.nodes.length → 1 ≤ s → s ≤ d.nodes.length →
      d.nodes[s - 1]? = some { tag, data := .sequence items style, start, stop } →
      Effect d (.appendItem s i ok) 1
        { d with nodes := d.nodes.set (s - 1) { tag, data := .sequence (items ++ [i]) style, start, stop } }
  | pair (m k v : Nat) (ok) (tag pairs style start stop) : 1 ≤ k → k ≤ d.nodes.length → 1 ≤ v → v ≤ d.nodes.length →
      1 ≤ m → m ≤ d.nodes.length →
      d.nodes[m - 1]? = some { tag, data := .mapping pairs style, start, stop } →
      Effect d (.appendPair m k v ok) 1
        { d with nodes := d.nodes.set (m - 1) { tag, data := .mapping (pairs ++ [(k, v)]) style, start, stop } }

theorem pushNode_effect (d : Doc) (op : DOp) (ok : Bool) (nd : Node) (ha : op.adds = true)
    (hd : match nd.data with | .sequence i _ => i = [] | .mapping p _ => p = [] | _ => True) :
    Effect d op (pushNode ok nd d).1 (pushNode ok nd d).2 := by
  unfold pushNode
  cases ok
  · exact .refused op
  · exact .added op nd ha hd

theorem validId_nat {d : Doc} {i : Int} (h : validId d i = true) :
    ∃ n : Nat, i = n ∧ 1 ≤ n ∧ n ≤ d.nodes.length ∧ i.toNat = n := by
  unfold validId at h
  have := of_decide_eq_true h
  exact ⟨i.toNat, by omega, by omega, by omega, rfl⟩

theorem run_effect {op : DOp} {d d' : Doc} {r : Int} (h : op.run d = .ok (r, d')) : Effect d op r d' := by
  cases op with
  | addScalar tag value style ok =>
    simp only [DOp.run] at h
    injection h with h
    have h1 := congrArg Prod.fst h
    have h2 := congrArg Prod.snd h
    simp only at h1 h2
    subst h1 h2
    unfold addScalar
    split
    · exact .refused _
    · split
      · exact .refused _
      · exact pushNode_effect d _ ok _ rfl trivial
  | addSequence tag style ok =>
    simp only [DOp.run] at h
    injection h with h
    have h1 := congrArg Prod.fst h
    have h2 := congrArg Prod.snd h
    simp only at h1 h2
    subst h1 h2
    unfold addSequence
    split
    · exact .refused _
    · exact pushNode_effect d _ ok _ rfl rfl
  | addMapping tag style ok =>
    simp only [DOp.run] at h
    injection h with h
    have h1 := congrArg Prod.fst h
    have h2 := congrArg Prod.snd h
    simp only at h1 h2
    subst h1 h2
    unfold addMapping
    split
    · exact .refused _
    · exact pushNode_effect d _ ok _ rfl rfl
  | appendItem s i ok =>
    simp only [DOp.run, appendItem] at h
    split at h
    · rename_i hs
      obtain ⟨n, rfl, hn1, hn2, hn3⟩ := validId_nat hs
      split at h
      · rename_i tag items style start stop hget
        split at h
        · rename_i hi
          obtain ⟨m, rfl, hm1, hm2, hm3⟩ := validId_nat hi
          split at h
          · injection h with h
            have h1 := congrArg Prod.fst h
            have h2 := congrArg Prod.snd h
            simp only at h1 h2
            subst h1 h2
            exact .item n m ok tag items style start stop hm1 hm2 hn1 hn2 hget
          · injection h with h
            have h1 := congrArg Prod.fst h
            have h2 := congrArg Prod.snd h
            simp only at h1 h2
            subst h1 h2
            exact .refused _
        · cases h
      · cases h
    · cases h
  | appendPair s k v ok =>
    simp only [DOp.run, appendPair] at h
    split at h
    · rename_i hs
      obtain ⟨n, rfl, hn1, hn2, hn3⟩ := validId_nat hs
      split at h
      · rename_i tag items style start stop hget
        split at h
        · rename_i hi
          obtain ⟨m, rfl, hm1, hm2, hm3⟩ := validId_nat hi.1
          obtain ⟨w, rfl, hw1, hw2, hw3⟩ := validId_nat hi.2
          split at h
          · injection h with h
            have h1 := congrArg Prod.fst h
            have h2 := congrArg Prod.snd h
            simp only at h1 h2
            subst h1 h2
            exact .pair n m w ok tag items style start stop hm1 hm2 hw1 hw2 hn1 hn2 hget
          · injection h with h
            have h1 := congrArg Prod.fst h
            have h2 := congrArg Prod.snd h
            simp only at h1 h2
            subst h1 h2
            exact .refused _
        · cases h
      · cases h
    · cases h

theorem getNode_nat (d : Doc) (n : Nat) : getNode d n = if 1 ≤ n then d.nodes[n - 1]? else none := by
  unfold getNode
  by_cases h : 1 ≤ n
  · rw [if_pos h]
    by_cases h2 : n ≤ d.nodes.length
    · rw [if_pos (by omega)]; rfl
    · rw [if_neg (by omega)]
      rw [List.getElem?_eq_none (by omega)]
  · rw [if_neg h, if_neg (by omega)]

theorem getNode_neg (d : Doc) (i : Int) (h : i ≤ 0) : getNode d i = none := by
  unfold getNode; rw [if_neg (by omega)]

/-- One call keeps every node, up to growth of collections. -/
theorem effect_same {d d' : Doc} {op : DOp} {r : Int} (h : Effect d op r d') (i : Int) (nd : Node)
    (hg : getNode d i = some nd) : ∃ nd', getNode d' i = some nd' ∧ SameNode nd nd' := by
  by_cases hi : i ≤ 0
  · rw [getNode_neg d i hi] at hg; cases hg
  obtain ⟨n, rfl⟩ : ∃ n : Nat, i = n := ⟨i.toNat, by omega⟩
  rw [getNode_nat] at hg ⊢
  rw [if_pos (by omega)] at hg ⊢
  cases h with
  | refused => exact ⟨nd, hg, sameNode_refl nd⟩
  | added op new h1 h3 =>
    refine ⟨nd, ?_, sameNode_refl nd⟩
    simp only
    rw [List.getElem?_append_left]
    · exact hg
    · exact (List.getElem?_eq_some_iff.mp hg).1
  | item s i ok tag items style start stop h1 h2 h3 h4 h5 =>
    simp only
    rw [List.getElem?_set]
    by_cases hs : s - 1 = n - 1
    · rw [if_pos hs, if_pos (by omega)]
      rw [← hs, h5] at hg
      injection hg with hg
      subst hg
      exact ⟨_, rfl, rfl, rfl, rfl, ⟨_, rfl⟩, rfl⟩
    · rw [if_neg hs]
      exact ⟨nd, hg, sameNode_refl nd⟩
  | pair s k v ok tag items style start stop h1 h2 h3 h4 h5 h6 h7 =>
    simp only
    rw [List.getElem?_set]
    by_cases hs : s - 1 = n - 1
    · rw [if_pos hs, if_pos (by omega)]
      rw [← hs, h7] at hg
      injection hg with hg
      subst hg
      exact ⟨_, rfl, rfl, rfl, rfl, ⟨_, rfl⟩, rfl⟩
    · rw [if_neg hs]
      exact ⟨nd, hg, sameNode_refl nd⟩

theorem effect_length {d d' : Doc} {op : DOp} {r : Int} (h : Effect d op r d') :
    d'.nodes.length = d.nodes.length + (if op.adds && decide (r ≠ 0) then 1 else 0) ∧
    (op.adds = true → r ≠ 0 → r = (d.nodes.length + 1 : Nat)) := by
  cases h with
  | refused => exact ⟨by simp, fun _ h => absurd rfl h⟩
  | added op nd h1 h3 =>
    refine ⟨?_, fun _ _ => rfl⟩
    have : decide (((d.nodes.length + 1 : Nat) : Int) ≠ 0) = true := by
      apply decide_eq_true; omega
    rw [this, h1]; simp
  | item => exact ⟨by simp [DOp.adds], fun h => by simp [DOp.adds] at h⟩
  | pair => exact ⟨by simp [DOp.adds], fun h => by simp [DOp.adds] at h⟩

theorem effect_ok {d d' : Doc} {op : DOp} {r : Int} (h : Effect d op r d') (hd : DocOK d) : DocOK d' := by
  cases h with
  | refused => exact hd
  | added op new h1 h3 =>
    intro nd hnd
    simp only [List.length_append, List.length_cons, List.length_nil]
    rcases List.mem_append.mp hnd with hm | hm
    · have := hd nd hm
      obtain ⟨tag, data, _, _⟩ := nd
      cases data with
      | scalar => trivial
      | sequence items _ => intro i hi; have := this i hi; omega
      | mapping pairs _ => intro p hp; have := this p hp; omega
    · rw [List.mem_singleton.mp hm]
      obtain ⟨tag, data, _, _⟩ := new
      cases data with
      | scalar => trivial
      | sequence items _ => simp only at h3; subst h3; intro i hi; cases hi
      | mapping pairs _ => simp only at h3; subst h3; intro i hi; cases hi
  | item s i ok tag items style start stop h1 h2 h3 h4 h5 =>
    intro nd hnd
    simp only [List.length_set]
    rcases List.mem_or_eq_of_mem_set hnd with hm | hm
    · exact hd nd hm
    · subst hm
      have := hd _ (List.mem_of_getElem? h5)
      intro x hx
      rcases List.mem_append.mp hx with hx | hx
      · exact this x hx
      · rw [List.mem_singleton.mp hx]; omega
  | pair s k v ok tag items style start stop h1 h2 h3 h4 h5 h6 h7 =>
    intro nd hnd
    simp only [List.length_set]
    rcases List.mem_or_eq_of_mem_set hnd with hm | hm
    · exact hd nd hm
    · subst hm
      have := hd _ (List.mem_of_getElem? h7)
      intro x hx
      rcases List.mem_append.mp hx with hx | hx
      · exact this x hx
      · rw [List.mem_singleton.mp hx]; simp only; omega

theorem runDoc_cons {op : DOp} {ops : List DOp} {d d' : Doc} {rs : List Int} (h : runDoc (op :: ops) d = .ok (rs, d')) :
    ∃ r d1 rs', op.run d = .ok (r, d1) ∧ runDoc ops d1 = .ok (rs', d') ∧ rs = r :: rs' := by
  simp only [runDoc] at h
  split at h
  · cases h
  · rename_i r d1 h1
    split at h
    · cases h
    · rename_i rs' d2 h2
      injection h with h
      have e1 := congrArg Prod.fst h
      have e2 := congrArg Prod.snd h
      simp only at e1 e2
      subst e1 e2
      exact ⟨r, d1, rs', h1, h2, rfl⟩

/-! ### The theorems -/

/-- **C16, ids.** The ids handed out by any history starting from an empty document are 1, 2, 3, ... without gap, and
exactly the numbers 1 to n denote nodes, where n is the number of ids handed out; the root is node 1. -/
theorem C16_ids_dense_and_checked (ops : List DOp) (d0 d : Doc) (rs : List Int) (h0 : d0.nodes = [])
    (h : runDoc ops d0 = .ok (rs, d)) :
    idsOf ops rs = (List.range (idsOf ops rs).length).map (fun k => ((k + 1 : Nat) : Int)) ∧
    (∀ i : Int, (getNode d i).isSome ↔ i ∈ idsOf ops rs) ∧
    getRoot d = getNode d 1 := by
  have key : ∀ (ops : List DOp) (d0 : Doc) rs d, runDoc ops d0 = .ok (rs, d) →
      idsOf ops rs = (List.range' (d0.nodes.length + 1) (idsOf ops rs).length).map (fun k : Nat => (k : Int)) ∧
      d.nodes.length = d0.nodes.length + (idsOf ops rs).length := by
    intro ops
    induction ops with
    | nil => intro d0 rs d h; simp only [runDoc] at h; cases h; simp [idsOf]
    | cons op ops ih =>
      intro d0 rs d h
      obtain ⟨r, d1, rs', h1, h2, rfl⟩ := runDoc_cons h
      obtain ⟨e1, e2⟩ := effect_length (run_effect h1)
      obtain ⟨i1, i2⟩ := ih d1 rs' d h2
      by_cases hc : (op.adds && decide (r ≠ 0)) = true
      · rw [if_pos hc] at e1
        rw [Bool.and_eq_true, decide_eq_true_eq] at hc
        have hr := e2 hc.1 hc.2
        have hid : idsOf (op :: ops) (r :: rs') = r :: idsOf ops rs' := by
          simp only [idsOf]; rw [if_pos (by rw [Bool.and_eq_true, decide_eq_true_eq]; exact hc)]
        rw [hid]
        refine ⟨?_, by rw [List.length_cons]; omega⟩
        rw [List.length_cons, List.range'_succ, List.map_cons, hr]
        rw [e1] at i1
        rw [← i1]
      · rw [if_neg hc] at e1
        have hid : idsOf (op :: ops) (r :: rs') = idsOf ops rs' := by
          simp only [idsOf]; rw [if_neg hc]
        rw [hid]
        rw [Nat.add_zero] at e1
        rw [e1] at i1 i2
        exact ⟨i1, i2⟩
  obtain ⟨k1, k2⟩ := key ops d0 rs d h
  rw [h0] at k1 k2
  simp only [List.length_nil, Nat.zero_add] at k1 k2
  have k3 : idsOf ops rs = (List.range (idsOf ops rs).length).map (fun k => ((k + 1 : Nat) : Int)) := by
    conv => lhs; rw [k1]
    rw [List.range'_eq_map_range, List.map_map]
    apply List.map_congr_left
    intro a _
    simp only [Function.comp]; omega
  refine ⟨k3, ?_, ?_⟩
  · intro i
    rw [k3, List.mem_map]
    unfold getNode
    constructor
    · intro hs
      split at hs
      · rename_i hi
        exact ⟨i.toNat - 1, by rw [List.mem_range]; omega, by omega⟩
      · cases hs
    · rintro ⟨k, hk, rfl⟩
      rw [List.mem_range] at hk
      rw [if_pos (by omega), List.getElem?_eq_getElem (by omega)]; rfl
  · unfold getRoot getNode
    by_cases hl : d.nodes.length = 0
    · rw [if_neg (by omega), if_neg (by omega)]
    · rw [if_pos hl, if_pos (by omega)]; rfl

/-- **C16, stability.** An id keeps denoting the same node whatever calls follow. -/
theorem C16_ids_are_stable (ops : List DOp) (d0 d : Doc) (rs : List Int) (h : runDoc ops d0 = .ok (rs, d))
    (i : Int) (nd : Node) (hg : getNode d0 i = some nd) : ∃ nd', getNode d i = some nd' ∧ SameNode nd nd' := by
  induction ops generalizing d0 rs nd with
  | nil => simp only [runDoc] at h; cases h; exact ⟨nd, hg, sameNode_refl nd⟩
  | cons op ops ih =>
    obtain ⟨r, d1, rs', h1, h2, rfl⟩ := runDoc_cons h
    obtain ⟨nd1, g1, s1⟩ := effect_same (run_effect h1) i nd hg
    obtain ⟨nd2, g2, s2⟩ := ih d1 rs' h2 nd1 g1
    exact ⟨nd2, g2, sameNode_trans s1 s2⟩

/-- **C16, content.** A new id denotes the node described by the arguments; invalid UTF-8 is refused. -/
theorem C16_added_node (d : Doc) :
    (∀ tag value style ok r d', (DOp.addScalar tag value style ok).run d = .ok (r, d') → r ≠ 0 →
      ∃ t v, getNode d' r = some { tag := t, data := .scalar v style } ∧ value = utf8s v ∧
        (match tag with | none => t = strTag | some b => b = utf8s t)) ∧
    (∀ tag style ok r d', (DOp.addSequence tag style ok).run d = .ok (r, d') → r ≠ 0 →
      ∃ t, getNode d' r = some { tag := t, data := .sequence [] style } ∧
        (match tag with | none => t = seqTag | some b => b = utf8s t)) ∧
    (∀ tag style ok r d', (DOp.addMapping tag style ok).run d = .ok (r, d') → r ≠ 0 →
      ∃ t, getNode d' r = some { tag := t, data := .mapping [] style } ∧
        (match tag with | none => t = mapTag | some b => b = utf8s t)) := by
  have htag : ∀ {dflt tag t}, apiTag dflt tag = some t → (match tag with | none => t = dflt | some b => b = utf8s t) := by
    intro dflt tag t h
    cases tag with
    | none => simp only [apiTag] at h; injection h with h; exact h.symm
    | some b => exact ((apiText_iff b t).mp h).1
  have hpush : ∀ ok nd, (pushNode ok nd d).1 ≠ 0 → getNode (pushNode ok nd d).2 (pushNode ok nd d).1 = some nd := by
    intro ok nd h
    cases ok
    · exact absurd rfl h
    · simp only [pushNode, if_true]
      rw [getNode_nat, if_pos (by omega)]
      simp
  refine ⟨?_, ?_, ?_⟩
  · intro tag value style ok r d' h hr
    simp only [DOp.run] at h
    injection h with h
    have h1 := congrArg Prod.fst h
    have h2 := congrArg Prod.snd h
    simp only at h1 h2
    subst h1 h2
    unfold addScalar at hr ⊢
    split at hr
    · exact absurd rfl hr
    · rename_i t ht
      split at hr
      · exact absurd rfl hr
      · rename_i v hv
        exact ⟨t, v, hpush _ _ hr, ((apiText_iff value v).mp hv).1, htag ht⟩
  · intro tag style ok r d' h hr
    simp only [DOp.run] at h
    injection h with h
    have h1 := congrArg Prod.fst h
    have h2 := congrArg Prod.snd h
    simp only at h1 h2
    subst h1 h2
    unfold addSequence at hr ⊢
    split at hr
    · exact absurd rfl hr
    · rename_i t ht
      exact ⟨t, hpush _ _ hr, htag ht⟩
  · intro tag style ok r d' h hr
    simp only [DOp.run] at h
    injection h with h
    have h1 := congrArg Prod.fst h
    have h2 := congrArg Prod.snd h
    simp only at h1 h2
    subst h1 h2
    unfold addMapping at hr ⊢
    split at hr
    · exact absurd rfl hr
    · rename_i t ht
      exact ⟨t, hpush _ _ hr, htag ht⟩

/-- **C17, one call.** A successful append puts the item (the pair) at the end of exactly that collection and leaves
every other node as it was. -/
theorem C17_append_is_local (d d' : Doc) :
    (∀ s i ok, (DOp.appendItem s i ok).run d = .ok (1, d') →
      ∃ tag items style start stop, getNode d s = some { tag, data := .sequence items style, start, stop } ∧
        getNode d' s = some { tag, data := .sequence (items ++ [i.toNat]) style, start, stop } ∧
        (getNode d i).isSome ∧ ∀ j, j ≠ s → getNode d' j = getNode d j) ∧
    (∀ m k v ok, (DOp.appendPair m k v ok).run d = .ok (1, d') →
      ∃ tag pairs style start stop, getNode d m = some { tag, data := .mapping pairs style, start, stop } ∧
        getNode d' m = some { tag, data := .mapping (pairs ++ [(k.toNat, v.toNat)]) style, start, stop } ∧
        (getNode d k).isSome ∧ (getNode d v).isSome ∧ ∀ j, j ≠ m → getNode d' j = getNode d j) := by
  have hset : ∀ (n : Nat) (nd : Node) (j : Int), 1 ≤ n → j ≠ (n : Int) →
      getNode { d with nodes := d.nodes.set (n - 1) nd } j = getNode d j := by
    intro n nd j hn hj
    unfold getNode
    simp only [List.length_set]
    by_cases hc : 0 < j ∧ j ≤ d.nodes.length
    · rw [if_pos hc, if_pos hc, List.getElem?_set_ne (by omega)]
    · rw [if_neg hc, if_neg hc]
  have hisSome : ∀ n : Nat, 1 ≤ n → n ≤ d.nodes.length → (getNode d n).isSome := by
    intro n h1 h2
    rw [getNode_nat, if_pos h1, List.getElem?_eq_getElem (by omega)]; rfl
  constructor
  · intro s i ok h
    have he := run_effect h
    generalize hop : DOp.appendItem s i ok = op at he
    generalize hr : (1 : Int) = r at he
    cases he with
    | refused => omega
    | added op nd h1 => subst hop; cases h1
    | pair => cases hop
    | item s' i' ok' tag items style start stop h1 h2 h3 h4 h5 =>
      cases hop
      refine ⟨tag, items, style, start, stop, by rw [getNode_nat, if_pos h3]; exact h5, ?_, hisSome _ h1 h2,
        fun j hj => hset _ _ j h3 hj⟩
      rw [getNode_nat, if_pos h3]
      simp only
      rw [List.getElem?_set_self (by omega)]
      rfl
  · intro m k v ok h
    have he := run_effect h
    generalize hop : DOp.appendPair m k v ok = op at he
    generalize hr : (1 : Int) = r at he
    cases he with
    | refused => omega
    | added op nd h1 => subst hop; cases h1
    | item => cases hop
    | pair m' k' v' ok' tag pairs style start stop h1 h2 h3 h4 h5 h6 h7 =>
      cases hop
      refine ⟨tag, pairs, style, start, stop, by rw [getNode_nat, if_pos h5]; exact h7, ?_, hisSome _ h1 h2,
        hisSome _ h3 h4, fun j hj => hset _ _ j h5 hj⟩
      rw [getNode_nat, if_pos h5]
      simp only
      rw [List.getElem?_set_self (by omega)]
      rfl

/-- **C17, all histories.** All ids stored in a document always denote existing nodes. -/
theorem C17_stored_ids_valid (ops : List DOp) (d0 d : Doc) (rs : List Int) (h0 : DocOK d0)
    (h : runDoc ops d0 = .ok (rs, d)) : DocOK d := by
  induction ops generalizing d0 rs with
  | nil => simp only [runDoc] at h; cases h; exact h0
  | cons op ops ih =>
    obtain ⟨r, d1, rs', h1, h2, rfl⟩ := runDoc_cons h
    exact ih d1 rs' (effect_ok (run_effect h1) h0) h2

/-- A history meeting the hypotheses: a sequence containing a scalar and itself. -/
example : ∃ d, runDoc [.addSequence none .block true, .addScalar none [0x61] .plain true, .appendItem 1 2 true,
    .addScalar none [0xFF] .plain true, .appendItem 1 1 true] {} = .ok ([1, 2, 1, 0, 1], d) ∧
    (getNode d 1).map (·.data) = some (.sequence [2, 1] .block) := ⟨_, rfl, rfl⟩
example : DocOK {} := fun _ h => by cases h
/-- Outside the asserted preconditions the model says `ub`. -/
example : runDoc [.addScalar none [0x61] .plain true, .appendItem 1 1 true] {} = .error .ub := rfl

end LibYaml
