import Verif.Proofs.LexDepth

/-!
How far the scanner looks ahead: the tokens in the queue of the scanner contain no more than 1024 that close a flow collection, and those that
close a block collection are there only outside of flow collections.
-/

namespace LibYaml

open Spec

variable {T : List Nat} {e : Option Fail} {S : Token} {D Q Q' : List Token} {ls pre post : List Lx} {l x : Lx} {s : Scanner} {i : In} {u cols : List Nat} {lv : Nat}
  {key : Bool}

local notation "safe" m:max Q:max s:max i:max => pw m Q (PointedErr T e) s i

/-- Tokens that open a block collection. -/
def blockStart : TokData → Bool
  | .blockSequenceStart | .blockMappingStart => true
  | _ => false

/-- Tokens that open a flow collection. -/
def flowStart : TokData → Bool
  | .flowSequenceStart | .flowMappingStart => true
  | _ => false

/-- Tokens that close a flow collection. -/
def flowEnd : TokData → Bool
  | .flowSequenceEnd | .flowMappingEnd => true
  | _ => false

/-- What is in the queue, with `lv` open flow collections behind it. -/
structure Nearby (Q : List Token) (lv : Nat) : Prop where
  ends : Q.countP (fun t => flowEnd t.data) ≤ 1024
  low : (∃ t ∈ Q, t.data = .blockEnd) → lv ≤ 1
  after : Q.Pairwise fun t x => blockStart t.data = true → x.data ≠ .blockEnd

/-- Nothing in the queue belongs to block collections. -/
structure Placid (Q : List Token) : Prop where
  ends : Q.countP (fun t => flowEnd t.data) ≤ 1023
  none : ∀ t ∈ Q, t.data ≠ .blockEnd ∧ blockStart t.data = false

theorem Nearby.tail {t : Token} (h : Nearby (t :: Q) lv) : Nearby Q lv :=
  ⟨by have := h.ends; rw [List.countP_cons] at this; omega, fun ⟨x, hx, hd⟩ => h.low ⟨x, by simp [hx], hd⟩, (List.pairwise_cons.mp h.after).2⟩

/-! ### The data of lexemes -/

theorem Spec.Lexeme.kind {flow : Bool} {indent : Int} {col : Nat} {cs mid rest : List Nat} {d : TokData} {line : Bool}
    (h : Lexeme flow indent col cs d mid rest line) : d ≠ .blockEnd ∧ blockStart d = false := by
  cases h <;> simp [blockStart]

/-- Lexemes do not have the data of tokens that are added, and keys do not end block collections. -/
def Plainly (x : Lx) : Prop := x.data ≠ .blockEnd ∧ blockStart x.data = false ∧ (x.keyed = true → endsBlocks x.data = false)

theorem marked_forall {P : Lx → Prop} {ls' : List Lx} {m : Mark} {d : TokData} {kd : Bool} (h : Marked ls lv m d ls' kd)
    (hp : ∀ x ∈ ls, P x) (hk : ∀ x ∈ ls, opensKey x.data = true → P x → P { x with keyed := true }) : ∀ x ∈ ls', P x := by
  cases h with
  | other => exact hp
  | implicit _ hpd =>
    obtain ⟨rfl, _, _, ho, _⟩ := hpd
    intro x hx
    rcases List.mem_append.mp hx with hx | hx
    · exact hp x (by simp [hx])
    · rcases List.mem_cons.mp hx with rfl | hx
      · exact hk _ (by simp) ho (hp _ (by simp))
      · exact hp x (by simp [hx])
  | explicit => exact hp

theorem marked_kd {ls' : List Lx} {m : Mark} {d : TokData} {kd : Bool} (h : Marked ls lv m d ls' kd) (hk : kd = true) : d = .value := by
  cases h with
  | other => cases hk
  | implicit h => exact h
  | explicit => cases hk

theorem Spec.Lexed.plainly (h : Lexed T ls u lv key) : ∀ x ∈ ls, Plainly x := by
  induction h with
  | start => simp
  | @next ls u lv key w v x mid rest key' kd line ls' d h hno hT hf hl hx hm hk hn ih =>
    intro y hy
    rcases List.mem_append.mp hy with hy | hy
    · exact marked_forall hm ih (fun x hx ho hp => ⟨hp.1, hp.2.1, fun _ => (opensKey_ends ho).1⟩) y hy
    · obtain rfl := List.mem_singleton.mp hy
      exact ⟨hl.kind.1, hl.kind.2, fun hk => by rw [marked_kd hm hk]; rfl⟩

/-- The places of lexemes. -/
theorem Spec.Lexed.spread (h : Lexed T ls u lv key) (hno : ∀ x ∈ ls, x.data ≠ .streamEnd) :
    (ls.map fun x => x.pos.index).Pairwise (· < ·) ∧ ∀ n ∈ ls.map fun x => x.pos.index, n < u.length := by
  induction h with
  | start => simp
  | @next ls u lv key w v x mid rest key' kd line ls' d h hno' hT hf hl hx hm hk hn ih =>
    obtain ⟨h1, h2⟩ := ih hno'
    have he : ls'.map (fun x => x.pos.index) = ls.map fun x => x.pos.index := by
      cases hm with
      | other => rfl
      | implicit _ hp => rw [hp.eq]; simp
      | explicit => rfl
    have h3 := hl.shrinks (by simpa using hno _ (List.mem_append.mpr (.inr (List.mem_singleton.mpr rfl))))
    rw [List.length_append] at h3
    rw [List.map_append, he]
    refine ⟨List.pairwise_append.mpr ⟨h1, by simp, fun a ha b hb => ?_⟩, fun n hn => ?_⟩
    · have := h2 a ha
      simp [markOf] at hb
      omega
    · rcases List.mem_append.mp hn with hn | hn
      · have := h2 n hn
        simp only [List.length_append]
        omega
      · simp [markOf] at hn
        simp only [List.length_append]
        omega

theorem ascending_length {a b : Nat} {ns : List Nat} (h : ns.Pairwise (· < ·)) (hn : ∀ n ∈ ns, a < n ∧ n < b) : ns.length ≤ b - a - 1 := by
  induction ns generalizing a with
  | nil => simp
  | cons n ns ih =>
    obtain ⟨h1, h2⟩ := List.pairwise_cons.mp h
    have := hn n (by simp)
    have := ih h2 (a := n) (fun m hm => ⟨h1 m hm, (hn m (by simp [hm])).2⟩)
    simp only [List.length_cons]
    omega

/-! ### The tokens of one lexeme -/

/-- The tokens in front of a lexeme and its own. -/
def piece (x : Lx) (cols : List Nat) : List Token := x.closing cols ++ x.body (x.within cols)

theorem layout_piece : layout [] (ls ++ [x]) = layout [] ls ++ piece x (openBlocks [] ls) := by
  rw [layout_append]
  simp [layout, piece]

theorem mem_closing {t : Token} (h : t ∈ x.closing cols) : t.data = .blockEnd ∧ x.level = 0 := by
  unfold Lx.closing at h
  split at h
  · rename_i h0
    unfold blockEnds at h
    obtain ⟨_, _, rfl⟩ := List.mem_map.mp h
    exact ⟨rfl, h0⟩
  · cases h

theorem begins_start {d : TokData} (h : x.begins = some d) : blockStart d = true ∧ x.level = 0 := by
  unfold Lx.begins at h
  split at h
  · rename_i h0
    refine ⟨?_, h0⟩
    split at h
    · cases h; rfl
    · cases h; rfl
    · split at h
      · cases h
      · cases h; rfl
    · split at h
      · cases h; rfl
      · cases h
  · cases h

theorem opening_start {d : TokData} (h : x.opening cols = some d) : blockStart d = true ∧ x.level = 0 := by
  unfold Lx.opening at h
  split at h
  · exact begins_start h
  · cases h

/-- The tokens of a lexeme: first what closes block collections, then the others. -/
theorem piece_parts (hx : Plainly x) : ∃ A B C, piece x cols = A ++ (B ++ C) ∧ (∀ t ∈ A, t.data = .blockEnd ∧ x.level = 0) ∧
    (∀ t ∈ B, blockStart t.data = true) ∧ (∀ t ∈ C, t.data ≠ .blockEnd ∧ blockStart t.data = false) ∧ C.countP (fun t => flowEnd t.data) ≤ 1 := by
  refine ⟨x.closing cols ++ (if endsBlocks x.data = true ∧ x.level = 0 then blockEnds x.start (x.within cols) else []),
    ((x.opening (x.within cols)).toList.map fun d => { data := d, start := x.pos, stop := x.pos }),
    (if x.keyed = true ∧ x.data ≠ .value then [{ data := .key, start := x.pos, stop := x.pos }] else []) ++ [x.token], ?_, ?_, ?_, ?_, ?_⟩
  · simp [piece, Lx.body]
  · intro t ht
    rcases List.mem_append.mp ht with ht | ht
    · exact mem_closing ht
    · split at ht
      · rename_i h
        unfold blockEnds at ht
        obtain ⟨_, _, rfl⟩ := List.mem_map.mp ht
        exact ⟨rfl, h.2⟩
      · cases ht
  · intro t ht
    obtain ⟨d, hd, rfl⟩ := List.mem_map.mp ht
    exact (opening_start (Option.mem_toList.mp hd)).1
  · intro t ht
    rcases List.mem_append.mp ht with ht | ht
    · split at ht
      · obtain rfl := List.mem_singleton.mp ht
        exact ⟨by simp, rfl⟩
      · cases ht
    · obtain rfl := List.mem_singleton.mp ht
      exact ⟨hx.1, hx.2.1⟩
  · rw [List.countP_append]
    have : List.countP (fun t => flowEnd t.data) [x.token] ≤ 1 := by
      have := List.countP_le_length (p := fun t : Token => flowEnd t.data) (l := [x.token])
      simpa using this
    have h2 : List.countP (fun t => flowEnd t.data)
        (if x.keyed = true ∧ x.data ≠ .value then [({ data := .key, start := x.pos, stop := x.pos } : Token)] else []) = 0 := by
      split <;> rfl
    omega

theorem countP_zero {A : List Token} {p : TokData → Bool} (h : ∀ t ∈ A, p t.data = false) : A.countP (fun t => p t.data) = 0 := by
  rw [List.countP_eq_zero]
  intro t ht
  simp [h t ht]

/-- One lexeme behind a quiet queue. -/
theorem near_other (hq : Placid Q) (hx : Plainly x) (hl : x.level = 0 → lv ≤ 1) : Nearby (Q ++ piece x cols) lv := by
  obtain ⟨A, B, C, he, hA, hB, hC, hn⟩ := piece_parts (cols := cols) hx
  rw [he]
  refine ⟨?_, ?_, ?_⟩
  · have h1 : A.countP (fun t => flowEnd t.data) = 0 := countP_zero fun t ht => by rw [(hA t ht).1]; rfl
    have h2 : B.countP (fun t => flowEnd t.data) = 0 := countP_zero fun t ht => by
      have := hB t ht
      cases hd : t.data <;> simp_all [blockStart, flowEnd]
    simp only [List.countP_append]
    have := hq.ends
    omega
  · rintro ⟨t, ht, hd⟩
    rcases List.mem_append.mp ht with ht | ht
    · exact absurd hd (hq.none t ht).1
    · rcases List.mem_append.mp ht with ht | ht
      · exact hl (hA t ht).2
      · rcases List.mem_append.mp ht with ht | ht
        · have := hB t ht; rw [hd] at this; cases this
        · exact absurd hd (hC t ht).1
  · have hBC : ∀ t ∈ B ++ C, t.data ≠ .blockEnd := by
      intro t ht
      rcases List.mem_append.mp ht with ht | ht
      · intro hd; have := hB t ht; rw [hd] at this; cases this
      · exact (hC t ht).1
    refine List.pairwise_append.mpr ⟨?_, List.pairwise_append.mpr ⟨?_, ?_, ?_⟩, ?_⟩
    · exact List.pairwise_iff_forall_sublist.mpr fun {a b} hab ha => by
        have := (hq.none a (hab.subset (by simp))).2
        rw [ha] at this; cases this
    · exact List.pairwise_iff_forall_sublist.mpr fun {a b} hab ha => by
        have := (hA a (hab.subset (by simp))).1
        rw [this] at ha
        exact absurd ha (by simp [blockStart])
    · exact List.pairwise_iff_forall_sublist.mpr fun {a b} hab _ => hBC b (hab.subset (by simp))
    · intro a ha b hb _
      exact hBC b hb
    · intro a ha b hb hs
      have := (hq.none a ha).2
      rw [hs] at this; cases this

/-- The `:` behind an implicit key. -/
theorem near_marked {A B K : List Token} (hq : Placid (A ++ B)) (hK : ∀ t ∈ K, t.data = .blockMappingStart ∨ t.data = .key) (ht : x.data = .value)
    (hk : x.keyed = true) (hc : x.closing cols = []) : Nearby (A ++ (K ++ B) ++ piece x cols) lv := by
  have hp : piece x cols = [x.token] := by
    have hb : x.begins = none := by
      unfold Lx.begins
      split
      · simp [ht]
      · rfl
    unfold piece Lx.body
    rw [hc, opening_none hb, ht]
    simp [endsBlocks]
  have hne : ∀ t ∈ A ++ (K ++ B) ++ piece x cols, t.data ≠ .blockEnd := by
    intro t h
    rw [hp] at h
    rcases List.mem_append.mp h with h | h
    · rcases List.mem_append.mp h with h | h
      · exact (hq.none t (by simp [h])).1
      · rcases List.mem_append.mp h with h | h
        · rcases hK t h with h | h <;> rw [h] <;> simp
        · exact (hq.none t (by simp [h])).1
    · obtain rfl := List.mem_singleton.mp h
      show x.data ≠ _
      rw [ht]; simp
  refine ⟨?_, fun ⟨t, h, hd⟩ => absurd hd (hne t h), List.pairwise_iff_forall_sublist.mpr fun {a b} hab _ => hne b (hab.subset (by simp))⟩
  have h1 : K.countP (fun t => flowEnd t.data) = 0 := countP_zero fun t h => by rcases hK t h with h | h <;> rw [h] <;> rfl
  have h2 : (piece x cols).countP (fun t => flowEnd t.data) = 0 := by
    rw [hp]
    refine countP_zero fun t h => ?_
    obtain rfl := List.mem_singleton.mp h
    show flowEnd x.data = false
    rw [ht]; rfl
  have := hq.ends
  simp only [List.countP_append] at this ⊢
  omega

/-! ### One lexeme more -/

/-- Behind a pending lexeme, block collections stay as they are. -/
theorem pending_still {v : Nat} {m : Mark} (hp : Spec.Pending ls v pre l post) (hr : l.reaches m) (hm : IsPos T m) (hfit : Fit T S D ls m [] cols s) :
    ∀ y ∈ post, if l.level = 0 then Still l.pos.column y else y.level ≠ 0 := by
  have hmem : l ∈ ls := by rw [hp.eq]; simp
  intro y hy
  have hyls : y ∈ ls := by rw [hp.eq]; simp [hy]
  have hrest := hp.rest y hy
  split
  · rename_i h0
    by_cases hy0 : y.level = 0
    · right
      obtain ⟨a, b⟩ := hrest.2 (by rw [hy0, ← hp.level, h0])
      refine ⟨a, ?_, ?_⟩
      · have hord := hfit.order
        rw [hp.eq] at hord
        have hle : l.pos.index ≤ y.pos.index := by
          have := (List.pairwise_append.mp hord).2.1
          exact (List.pairwise_cons.mp this).1 y hy
        have l1 := pos_line_le (hfit.place l hmem).1 (hfit.place y hyls).1 hle
        have l2 := pos_line_le (hfit.place y hyls).1 hm (hfit.place y hyls).2
        exact pos_column_le (hfit.place l hmem).1 (hfit.place y hyls).1 hle (by have := hr.1; omega)
      · by_cases hyk : y.keyed = true
        · rcases hfit.frees y hyls hyk with h | h
          · rw [h] at a; cases a
          · rw [b] at h; cases h
        · simpa using hyk
    · exact .inl hy0
  · rename_i h0
    have := hrest.1
    rw [hp.level] at h0
    omega

/-- When another token is fetched: the queue is empty, or its first token may still become a key. -/
def Fetching (ls : List Lx) (m : Mark) (D Q : List Token) : Prop :=
  Q = [] ∨ ∃ v pre l post, Spec.Pending ls v pre l post ∧ number pre l = D.length ∧ l.reaches m

theorem quiet_body (hd : Plainly x) (he : ¬ (endsBlocks x.data = true ∧ x.level = 0)) (hb : x.begins = none) :
    (∀ t ∈ x.body [], t.data ≠ .blockEnd ∧ blockStart t.data = false) ∧ (x.body []).countP (fun t => flowEnd t.data) ≤ 1 := by
  have h1 : x.body [] = (if x.keyed = true ∧ x.data ≠ .value then [({ data := .key, start := x.pos, stop := x.pos } : Token)] else []) ++ [x.token] := by
    unfold Lx.body
    rw [if_neg he, opening_none hb]
    simp
  rw [h1]
  refine ⟨fun t ht => ?_, ?_⟩
  · rcases List.mem_append.mp ht with ht | ht
    · split at ht
      · obtain rfl := List.mem_singleton.mp ht
        exact ⟨by simp, rfl⟩
      · cases ht
    · obtain rfl := List.mem_singleton.mp ht
      exact ⟨hd.1, hd.2.1⟩
  · rw [List.countP_append]
    have : List.countP (fun t => flowEnd t.data) [x.token] ≤ 1 := by
      have := List.countP_le_length (p := fun t : Token => flowEnd t.data) (l := [x.token])
      simpa using this
    have h2 : List.countP (fun t => flowEnd t.data)
        (if x.keyed = true ∧ x.data ≠ .value then [({ data := .key, start := x.pos, stop := x.pos } : Token)] else []) = 0 := by
      split <;> rfl
    omega

theorem placid_still {c : Nat} (h : ∀ y ∈ post, Still c y ∧ Plainly y) :
    (∀ t ∈ post.flatMap (fun y => y.body []), t.data ≠ .blockEnd ∧ blockStart t.data = false) ∧
      (post.flatMap (fun y => y.body [])).countP (fun t => flowEnd t.data) ≤ post.length := by
  induction post with
  | nil => simp
  | cons y post ih =>
    obtain ⟨h1, h2⟩ := ih fun z hz => h z (by simp [hz])
    obtain ⟨hs, hd⟩ := h y (by simp)
    obtain ⟨k1, k2⟩ := quiet_body (x := y) hd
      (by rintro ⟨g1, g2⟩
          rcases hs with h | ⟨h, _⟩
          · exact h g2
          · rw [(opensKey_ends h).1] at g1; cases g1) (still_begins hs)
    refine ⟨fun t ht => ?_, ?_⟩
    · rcases List.mem_append.mp ht with ht | ht
      · exact k1 t ht
      · exact h1 t ht
    · rw [List.flatMap_cons, List.countP_append, List.length_cons]
      omega

/-- The queue when another token is fetched. -/
theorem placid_fetching (hL : Lexed T ls u lv key) (hno : ∀ x ∈ ls, x.data ≠ .streamEnd) (hfit : Fit T S D ls (markOf u) [] cols s)
    (hm : IsPos T (markOf u)) (h : Fetching ls (markOf u) D s.tokens) : Placid s.tokens := by
  rcases h with h | ⟨v, pre, l, post, hp, hn, hr⟩
  · rw [h]
    exact ⟨by simp, by simp⟩
  have hpost := pending_still hp hr hm hfit
  have hlk := hfit.unkeyed _ _ _ _ hp
  have hpl := hL.plainly
  obtain ⟨s1, s2⟩ := hL.spread hno
  obtain ⟨b1, b2, b3, b4⟩ := body_keyed (cols := l.within (openBlocks [] pre)) hp.opens hlk
  obtain ⟨c, hc1, hc2⟩ : ∃ c, (∀ y ∈ post, Still c y) ∧ indentOf (l.within (openBlocks [] pre)) ≤ c := by
    by_cases h0 : l.level = 0
    · exact ⟨l.pos.column, fun y hy => by have := hpost y hy; rwa [if_pos h0] at this, within_indent h0⟩
    · exact ⟨(indentOf (l.within (openBlocks [] pre))).toNat, fun y hy => .inl (by have := hpost y hy; rwa [if_neg h0] at this), by omega⟩
  have hlay : layout [] ls = (layout [] pre ++ l.closing (openBlocks [] pre)) ++ (l.token :: post.flatMap (fun y => y.body [])) := by
    rw [hp.eq, layout_append]
    simp only [layout]
    rw [b2, b3, (still_layout hc1 hc2).1]
    simp
  have htok := hfit.toks
  rw [List.append_nil, hlay, ← List.cons_append] at htok
  obtain ⟨_, hQ⟩ := List.append_inj htok (by rw [← hn]; simp [number]; omega)
  rw [hQ]
  obtain ⟨q1, q2⟩ := placid_still (post := post) (c := c) fun y hy => ⟨hc1 y hy, hpl y (by rw [hp.eq]; simp [hy])⟩
  have hlpl := hpl l (by rw [hp.eq]; simp)
  refine ⟨?_, fun t ht => ?_⟩
  · have hlen : post.length ≤ 1023 := by
      rw [hp.eq, List.map_append, List.map_cons] at s1 s2
      have h1 := (List.pairwise_append.mp s1).2.1
      obtain ⟨h1, h2⟩ := List.pairwise_cons.mp h1
      have := ascending_length (a := l.pos.index) (b := u.length) h2 fun n hn => ⟨h1 n hn, s2 n (by simp [hn])⟩
      have hr2 := hr.2
      simp only [markOf] at hr2
      simp at this
      omega
    rw [List.countP_cons, if_neg (by
      show ¬ flowEnd l.data = true
      have := hp.opens
      cases hd : l.data <;> simp_all [opensKey, flowEnd])]
    omega
  · rcases List.mem_cons.mp ht with rfl | ht
    · exact ⟨hlpl.1, hlpl.2.1⟩
    · exact q1 t ht

theorem mem_keyToks {t : Token} (h : t ∈ keyToks' l cols) : t.data = .blockMappingStart ∨ t.data = .key := by
  unfold keyToks' at h
  rcases List.mem_append.mp h with h | h
  · split at h
    · obtain rfl := List.mem_singleton.mp h; exact .inl rfl
    · cases h
  · obtain rfl := List.mem_singleton.mp h; exact .inr rfl

/-- The queue after another lexeme. -/
theorem near_step {ls' : List Lx} {u' : List Nat} {lv' : Nat} {key' : Bool} (hL : Lexed T ls u lv key) (hno : ∀ x ∈ ls, x.data ≠ .streamEnd)
    (hfit : Fit T S D ls (markOf u) [] cols s) (hm : IsPos T (markOf u)) (hq : Fetching ls (markOf u) D s.tokens)
    (hs : LexStep T ls u lv key ls' u' lv' key') (hpos : ∀ x ∈ ls', IsPos T x.pos) (ht : D ++ Q' = S :: layout [] ls') : Nearby Q' lv' := by
  have hquiet := placid_fetching hL hno hfit hm hq
  have hpl := (hs.lexed hL hno).plainly
  have htok := hfit.toks
  rw [List.append_nil] at htok
  cases hs with
  | @mk w v x mid rest key1 kd line ls1 d hT hf hl hx hmk hk hn =>
    generalize hX : ({ data := d, pos := markOf (u ++ w), stop := stopAt d (markOf (u ++ w)) (markOf (u ++ (w ++ x))), level := lv, free := key1, keyed := kd } : Lx) = X at *
    have hXd : X.data = d := by rw [← hX]
    have hXp : X.pos = markOf (u ++ w) := by rw [← hX]
    have hXl : X.level = lv := by rw [← hX]
    have hXk : X.keyed = kd := by rw [← hX]
    have hXpl := hpl X (by simp)
    have hother : ls1 = ls → Nearby Q' (levelAfter lv d) := by
      rintro rfl
      rw [layout_piece, ← List.cons_append, ← htok, List.append_assoc] at ht
      rw [List.append_cancel_left ht]
      refine near_other hquiet hXpl fun h0 => ?_
      rw [hXl] at h0
      subst h0
      unfold levelAfter
      split <;> omega
    cases hmk with
    | other => exact hother rfl
    | explicit => exact hother rfl
    | @implicit a c b hd hp hr =>
      have hXpos := hpos X (by simp)
      rw [hXp] at hXpos
      have hle : (markOf u).index ≤ (markOf (u ++ w)).index := by simp [markOf]
      have hmem : c ∈ ls := by rw [hp.eq]; simp
      have hcl := (hfit.place c hmem).2
      have hr' : c.reaches (markOf u) := by
        have h1 := pos_line_le (hfit.place c hmem).1 hm hcl
        have h2 := pos_line_le hm hXpos hle
        have := hr.1
        have := hr.2
        exact ⟨by omega, by omega⟩
      have hck := hfit.unkeyed _ _ _ _ hp
      obtain ⟨A, B, e1, e2, e3, e4, e5⟩ := layout_marked (pre := a) hp.opens hck (pending_still hp hr' hm hfit)
      rw [← hp.eq] at e1
      have hcol : c.pos.column ≤ X.pos.column := by
        rw [hXp]
        exact pos_column_le (hfit.place c hmem).1 hXpos (by omega) hr.1
      have hclose : X.closing (openBlocks [] (a ++ { c with keyed := true } :: b)) = [] := by
        refine (within_le fun h0 => ?_).1
        rw [e5]
        have hc0 : c.level = 0 := by rw [hp.level, ← hXl, h0]
        have := within_indent (cols := openBlocks [] a) hc0
        split
        · simp only [indentOf]; omega
        · omega
      rw [layout_piece, e4] at ht
      rw [e1] at htok
      have hB : ∃ t r, B = t :: r ∧ opensKey t.data = true := by
        have h1 : layout [] ls = (layout [] a ++ c.closing (openBlocks [] a)) ++ (c.token :: layout (c.within (openBlocks [] a)) b) := by
          obtain ⟨b1, b2, b3, b4⟩ := body_keyed (cols := c.within (openBlocks [] a)) hp.opens hck
          rw [hp.eq, layout_append]
          simp only [layout]
          rw [b2, b3]
          simp
        rw [e1] at h1
        obtain ⟨_, h2⟩ := List.append_inj h1 (by simp [number] at e2 ⊢; omega)
        exact ⟨_, _, h2, hp.opens⟩
      -- the queue begins in front of the key
      obtain ⟨A1, A2, hD, hA⟩ : ∃ A1 A2, D = S :: A1 ∧ A = A1 ++ A2 := by
        have hshort : ¬ (S :: A).length < D.length := by
          intro hlt
          have h1 := congrArg (fun z => z[(S :: A).length]?) htok
          have h2 := congrArg (fun z => z[(S :: A).length]?) ht
          simp only [List.getElem?_append_left hlt] at h1 h2
          rw [h1] at h2
          simp only [← List.cons_append] at h2
          rw [List.getElem?_append_right (Nat.le_refl _), List.append_assoc, List.getElem?_append_right (Nat.le_refl _), Nat.sub_self] at h2
          obtain ⟨t, r, rfl, hto⟩ := hB
          have hk := mem_keyToks (l := c) (cols := c.within (openBlocks [] a)) (t := t)
          have hne : keyToks' c (c.within (openBlocks [] a)) ≠ [] := by simp [keyToks']
          cases hkt : keyToks' c (c.within (openBlocks [] a)) with
          | nil => exact hne hkt
          | cons y ys =>
            rw [hkt] at h2 hk
            simp at h2
            rcases hk (by simp [h2]) with h | h <;> rw [h] at hto <;> cases hto
        obtain ⟨r, hr⟩ : D <+: S :: A := List.prefix_of_prefix_length_le (l₃ := S :: (A ++ B)) ⟨_, htok⟩ ⟨B, rfl⟩ (by omega)
        cases D with
        | nil =>
          -- the first token is never a key
          cases hs : s.tokens with
          | nil => rw [hs] at htok; cases htok
          | cons t q =>
            exfalso
            rcases hq with hq | ⟨v, pre, l, post, _, hn, _⟩
            · rw [hs] at hq; cases hq
            · simp [number] at hn
        | cons t D' =>
          simp at hr
          exact ⟨D', r, by rw [hr.1], hr.2.symm⟩
      subst hA
      subst hD
      have h1 : s.tokens = A2 ++ B := by simpa using htok
      have h2 : Q' = A2 ++ (keyToks' c (c.within (openBlocks [] a)) ++ B) ++ piece X (openBlocks [] (a ++ { c with keyed := true } :: b)) := by
        have ht' : A1 ++ Q' = A1 ++ (A2 ++ (keyToks' c (c.within (openBlocks [] a)) ++ B) ++ piece X (openBlocks [] (a ++ { c with keyed := true } :: b))) := by simpa using ht
        exact List.append_cancel_left ht'
      rw [h2]
      rw [h1] at hquiet
      exact near_marked hquiet (fun t ht => mem_keyToks ht) (by rw [hXd, hd]) hXk hclose

/-! ### Calls of the scanner -/

theorem onLevels_mem {P : Nat → SimpleKey → Prop} {ks : List SimpleKey} {k : SimpleKey} (h : OnLevels P ks) (hk : k ∈ ks) : ∃ v, P v k := by
  induction ks with
  | nil => cases hk
  | cons k' ks ih =>
    rcases List.mem_cons.mp hk with rfl | hk
    · exact ⟨_, h.1⟩
    · exact ih h.2 hk

theorem running_mark (h : Running T e D s i) (hT : T = u ++ i.cs) : s.mark = markOf u ∧ IsPos T (markOf u) := by
  obtain ⟨u', k1, k2, _⟩ := h.base.pos.path
  have : s.mark = markOf u := by rw [k2, List.append_cancel_right (k1.symm.trans hT)]
  exact ⟨this, by rw [← this]; exact h.base.pos.onPath⟩

theorem near_fetchNext {f : Nat} {Q : Unit → Scanner → In → Prop} (hb : BadOk e) (h : Running T e D s i) (hx : LexInv T D s i) (hf : i.cs.length < f)
    (hq : s.tokens = [] ∨ (s.headPending = true ∧ ∀ k ∈ s.keys, k.possible = true → k.stale s.mark = false))
    (hQ : ∀ s' i', Running T e D s' i' → LexInv T D s' i' → Nearby s'.tokens s'.flowLevel → i'.cs.length < i.cs.length → Q () s' i')
    (hQe : ∀ s' i', ScanEnded T D s' i' → (NoneRequired s' → LexEnd T D s' ∧ Nearby s'.tokens s'.flowLevel) → Q () s' i') : safe (fetchNext f) Q s i := by
  obtain ⟨S, ls, u, hS, hL, hT, hfit⟩ := hx
  obtain ⟨hm, hmp⟩ := running_mark h hT
  have hfe : Fetching ls (markOf u) D s.tokens := by
    rcases hq with hq | ⟨hq, hst⟩
    · exact .inl hq
    · right
      unfold Scanner.headPending at hq
      rw [List.any_eq_true] at hq
      obtain ⟨k, hk, hp⟩ := hq
      rw [Bool.and_eq_true, beq_iff_eq] at hp
      obtain ⟨v, hv⟩ := onLevels_mem hfit.keys hk
      unfold KeyFit at hv
      rw [if_pos hp.1] at hv
      obtain ⟨pre, l, post, k1, k2, k3, _⟩ := hv
      have hsk := hst k hk hp.1
      refine ⟨v, pre, l, post, k1, by rw [← k3, hp.2, hfit.parsed], ?_⟩
      simp only [SimpleKey.stale, hp.1, Bool.true_and, Bool.or_eq_false_iff, decide_eq_false_iff_not] at hsk
      have hmem : l ∈ ls := by rw [k1.eq]; simp
      have := pos_line_le (hfit.place l hmem).1 (hm ▸ hmp) (hfit.place l hmem).2
      rw [k2] at hsk
      rw [← hm]
      exact ⟨by omega, by omega⟩
  refine lex_fetchStep hb h hT hfit hf (fun s' i' ls' u' k1 k2 k3 k4 k5 k6 => ?_) ?_
  · refine hQ s' i' k1 ⟨S, ls', u', hS, k3.lexed hL k2, k4, k5⟩ ?_ k6
    rw [hm] at hfit
    exact near_step hL k2 hfit hmp hfe k3 (fun x hx => (k5.place x hx).1) (by rw [k5.toks, List.append_nil])
  · intro s' i' k1 k2 k3
    refine hQe s' i' k1 fun hn => ?_
    obtain ⟨ls', u', g1, g3⟩ := k3 hn
    refine ⟨⟨S, ls', u', hS, g1.lexed hL k2, by rw [g3.toks, List.append_nil], g3.depth⟩, ?_⟩
    rw [hm] at hfit
    exact near_step hL k2 hfit hmp hfe g1 (fun x hx => (g3.place x hx).1) (by rw [g3.toks, List.append_nil])

theorem near_fetchMore {f n : Nat} {Q : Unit → Scanner → In → Prop} (hb : BadOk e) (h : Running T e D s i) (hx : LexInv T D s i) (hnear : Nearby s.tokens s.flowLevel)
    (hf : i.cs.length < f) (hn : i.cs.length + 1 < n)
    (hQ : ∀ s' i', Running T e D s' i' → LexInv T D s' i' → Nearby s'.tokens s'.flowLevel → i'.cs.length ≤ i.cs.length → s'.tokens ≠ [] → s'.headPending = false → Q () s' i')
    (hQe : ∀ s' i', ScanEnded T D s' i' → LexEnd T D s' → Nearby s'.tokens s'.flowLevel → NoneRequired s' → s'.headPending = false → Q () s' i') : safe (fetchMore f n) Q s i := by
  induction n generalizing s i with
  | zero => omega
  | succ n ih =>
    have hstep : ∀ s, Running T e D s i → LexInv T D s i → (s.tokens = [] ∨ (s.headPending = true ∧ ∀ k ∈ s.keys, k.possible = true → k.stale s.mark = false)) →
        safe (do fetchNext f; fetchMore f n) Q s i := by
      intro s h hx hq
      rw [pw_bind]
      refine near_fetchNext hb h hx hf hq (fun s' i' k1 kx kn k2 => ?_) (fun s' i' k1 kx => ?_)
      · exact ih k1 kx kn (by omega) (by omega) (fun s'' i'' j1 jx jn j2 j3 j4 => hQ s'' i'' j1 jx jn (by omega) j3 j4)
      · exact ended_stop' k1 (by omega) (fun s'' j1 j2 j3 j4 j5 => by
          obtain ⟨ks, rfl⟩ := j3
          exact hQe _ _ j1 (kx j4).1 (kx j4).2 j5 j2) fun _ => stale_error k1
    unfold fetchMore
    rw [pw_bind, pw_get]
    refine pw_ite (fun he => hstep s h hx (.inl (by simpa using he))) (fun hne => ?_)
    rw [pw_bind]
    refine pw_mono (pw_yields (sm_stale (Q := fun _ s' i' => s' = { s with keys := s.keys.map (LibYaml.dropStale s.mark) } ∧ i' = i) h.base fun _ => ⟨rfl, rfl⟩))
      ?_ (fun _ h => h)
    rintro _ s4 i4 ⟨⟨e4, rfl⟩, y4⟩
    have hx' := hx.stale (y_act.mp y4).1
    have h' := h.dropStale
    rw [← e4] at h'
    have hn' : Nearby s4.tokens s4.flowLevel := by rw [e4]; exact hnear
    rw [pw_bind, pw_get]
    refine pw_ite (fun hp => hstep _ h' hx' (.inr ⟨hp, ?_⟩)) (fun hp => ?_)
    · intro k hk hpk
      rw [e4] at hk
      have := mem_dropStale hk hpk
      rw [e4]
      exact this.2
    refine hQ _ _ h' hx' hn' (Nat.le_refl _) ?_ (by simpa using hp)
    intro hnil
    rw [e4] at hnil
    exact hne (by rw [show s.tokens = [] from hnil]; rfl)

/-- The tokens that were delivered, with those that are known already. -/
def Known (T : List Nat) (D : List Token) (s : Scanner) : Prop :=
  ∃ S ls u, (∃ en, S = (⟨.streamStart en, {}, {}⟩ : Token)) ∧ Lexed T ls u s.flowLevel s.allowed ∧ D ++ s.tokens = S :: layout [] ls ∧
    s.indents.length = (openBlocks [] ls).length

theorem LexInv.known (h : LexInv T D s i) : Known T D s := by
  obtain ⟨S, ls, u, hS, hL, hT, hfit⟩ := h
  exact ⟨S, ls, u, hS, hL, by rw [hfit.toks, List.append_nil], hfit.depth⟩

/-- What is known between calls, and the queue. -/
structure NearNext (T : List Nat) (e : Option Fail) (D : List Token) (s : Scanner) (i : In) : Prop where
  lex : LexNext T e D s i
  near : Nearby s.tokens s.flowLevel

/-- After a token was delivered. -/
structure NearAfter (T : List Nat) (e : Option Fail) (D : List Token) (s : Scanner) (i : In) (t : Token) : Prop where
  known : Known T (D ++ [t]) s
  near : Nearby (t :: s.tokens) s.flowLevel

/-- One call. -/
theorem near_nextToken {f : Nat} (hb : BadOk e) (h : NearNext T e D s i) (hf : T.length + 2 < f) :
    safe (nextToken f) (fun t s' i' => NearAfter T e D s' i' t) s i := by
  obtain ⟨h, hnear⟩ := h
  unfold nextToken
  rw [pw_bind]
  have hR : ∀ (s' : Scanner) (i' : In), Known T D s' → Nearby s'.tokens s'.flowLevel → s'.tokens ≠ [] →
      safe (fun s => match s.tokens with
        | [] => .fail .ub
        | t :: ts => .ret (t, { s with tokens := ts, tokensParsed := s.tokensParsed + 1 }))
        (fun t s' i' => NearAfter T e D s' i' t) s' i' := by
    intro s' i' hk hn hne
    cases ht : s'.tokens with
    | nil => exact absurd ht hne
    | cons t q =>
      unfold pw
      simp only [ht, Prog.run]
      obtain ⟨S, ls, u, hS, hL, hT, hd⟩ := hk
      refine ⟨⟨S, ls, u, hS, hL, ?_, hd⟩, by rw [ht] at hn; exact hn⟩
      rw [← hT, ht]
      simp
  have hE : ∀ {s'}, LexEnd T D s' → Known T D s' := fun h => h
  cases h with
  | fresh hD h =>
    subst hD
    obtain ⟨n, rfl⟩ : ∃ n, f = n + 1 := ⟨f - 1, by omega⟩
    have hl := h.pos.index
    rw [show fetchMore (n + 1) (n + 1) = (do
      if (← get).tokens.isEmpty then
        fetchNext (n + 1)
        fetchMore (n + 1) n
      else
        act Scanner.stale
        if (← get).headPending then
          fetchNext (n + 1)
          fetchMore (n + 1) n
        else pure ()) from rfl]
    rw [pw_bind, pw_get, if_pos (by rw [h.eq]; rfl), pw_bind]
    refine lex_fetchFirst hb h fun s' i' k1 kx ⟨en, kt⟩ k2 => ?_
    refine near_fetchMore hb k1 kx ?_ (by omega) (by omega) (fun s'' i'' j1 jx jn _ j3 j4 => hR s'' i'' jx.known jn j3)
      (fun s'' i'' j1 jx jn _ _ => hR s'' i'' (hE jx) jn j1.ne)
    rw [kt]
    refine ⟨by simp [flowEnd], ?_, by simp⟩
    rintro ⟨t, ht, hd⟩
    simp at ht
    rw [ht] at hd
    cases hd
  | running h hx =>
    have hl := h.base.pos.index
    exact near_fetchMore hb h hx hnear (by omega) (by omega) (fun s'' i'' j1 jx jn _ j3 j4 => hR s'' i'' jx.known jn j3)
      (fun s'' i'' j1 jx jn _ _ => hR s'' i'' (hE jx) jn j1.ne)
  | ended h hx hn =>
    refine ended_stop' h (by omega) (fun s' j1 _ j3 _ j5 => ?_) fun _ => stale_error h
    obtain ⟨ks, rfl⟩ := j3
    exact hR _ _ (hE hx) hnear h.ne

/-- The states that occur. -/
def NearState (T : List Nat) (e : Option Fail) (y : Scanner × RS) (D : List Token) : Prop :=
  ∃ i, Rel y.2 i ∧ i.bad = e ∧ (NearNext T e D y.1 i ∨ Over y.1 i)

/-- What is known about the last token. -/
def NearLast (T : List Nat) (y : Scanner × RS) (D : List Token) : Prop :=
  ∀ D' t, D = D' ++ [t] → t.data ≠ .streamEnd → Known T D y.1 ∧ Nearby (t :: y.1.tokens) y.1.flowLevel

theorem near_feeds {o : Oracle} {f : Nat} {x y : Scanner × RS} (hb : BadOk e) (hf : T.length + 2 < f) (hx : NearState T e x []) (h : Feeds (scannerSrc o f) x D y) :
    NearState T e y D ∧ NearLast T y D := by
  induction h with
  | nil => exact ⟨hx, fun D' t h => by simp at h⟩
  | @snoc ts z t w h1 h2 ih =>
    obtain ⟨⟨i, g0, g1, g2⟩, _⟩ := ih
    have key : pw (nextToken f) (fun t s' i' => (NearNext T e (ts ++ [t]) s' i' ∨ Over s' i') ∧
        (t.data ≠ .streamEnd → Known T (ts ++ [t]) s' ∧ Nearby (t :: s'.tokens) s'.flowLevel)) Fail.reported z.1 i := by
      rcases g2 with g2 | g2
      · have hnext : LibYaml.Next T e ts z.1 i := by
          cases g2.lex with
          | fresh hD h => exact .fresh hD h
          | running h _ => exact .running h
          | ended h _ _ => exact .ended h
        refine pw_mono (pw_and (near_nextToken hb g2 hf) (pw_and (lex_nextToken hb g2.lex hf) (sm_nextToken hb hnext hf))) ?_ (fun _ h => h.1.1)
        rintro t' s' i' ⟨k0, k1, k2⟩
        refine ⟨?_, fun _ => ⟨k0.known, k0.near⟩⟩
        cases k1 with
        | running hr hx ht => exact .inl ⟨.running hr hx, k0.near.tail⟩
        | ended hr hx hn ht => exact .inl ⟨.ended hr hx hn, k0.near.tail⟩
        | done ht hx he =>
          cases k2 with
          | running _ hne => exact absurd ht hne
          | ended _ hne => exact absurd ht hne
          | done _ _ hr he hs => exact .inr ⟨hr, he, hs⟩
      · refine pw_mono (safe_nextOver (by omega) (by rw [g1]; exact hb) g2) ?_ (fun _ h => h)
        rintro t' s' i' ⟨k1, k2, _, k4, k5⟩
        exact ⟨.inr k2, fun hne => absurd k1 hne⟩
    unfold pw at key
    have hub : (nextToken f z.1).run i ≠ .error .ub := by
      intro hu; rw [hu] at key; exact key
    have hn : (scannerSrc o f).next z = match onReader o (nextToken f) z.1 z.2 with
      | .error e => .error e
      | .ok ((t, s), st) => .ok (t, (s, st)) := rfl
    rw [hn] at h2
    rcases runR_refines o (nextToken f z.1) z.2 i g0 hub with ⟨er, _, h3⟩ | ⟨er, _, h3⟩ | ⟨⟨t', s'⟩, i', st', h3, h4, h5⟩
    · have h3' : onReader o (nextToken f) z.1 z.2 = .error er := by assumption
      rw [h3'] at h2; cases h2
    · have h3' : onReader o (nextToken f) z.1 z.2 = .error er := h3
      rw [h3'] at h2; cases h2
    · have h4' : onReader o (nextToken f) z.1 z.2 = .ok ((t', s'), st') := h4
      rw [h4'] at h2
      rw [h3] at key
      cases h2
      refine ⟨⟨i', h5, by rw [← g1]; exact Prog.run_bad _ _ h3, key.1⟩, fun D' t h hne => ?_⟩
      obtain ⟨_, h4⟩ := List.append_inj' h rfl
      cases h4
      exact key.2 hne

theorem near_start {enc : Option Enc} {bytes : List UInt8} {good : List Nat} {tail : List UInt8} (hsize : bytes.length < maxFileSize)
    (hs : Split (chosen enc bytes).1 (chosen enc bytes).2 good tail) :
    NearState (inputOf enc bytes good tail).cs (inputOf enc bytes good tail).bad ((scanStart enc bytes).scanner, (scanStart enc bytes).input) [] := by
  cases scanInv_start hsize hs with
  | going D i hout hend herr next rel bad =>
    cases next with
    | fresh hD h =>
      refine ⟨i, rel, bad, .inl ⟨.fresh rfl h, ?_⟩⟩
      rw [h.eq]
      exact ⟨by simp, by simp, by simp⟩
    | running h => exact absurd h.base.started (by simp [scanStart])
    | ended h => exact absurd h.rest.started (by simp [scanStart])
  | ended D j hout hend herr => cases hend
  | failed D j er i hout hend herr => cases herr

/-! ### Counting -/

/-- What a token does to the number of open block collections. -/
def deltaB (d : TokData) : Int := if blockStart d then 1 else if d = .blockEnd then -1 else 0

/-- What a token does to the number of open flow collections. -/
def deltaF (d : TokData) : Int := if flowStart d then 1 else if flowEnd d then -1 else 0

/-- The sum over tokens. -/
def sumOver (g : TokData → Int) (ts : List Token) : Int := (ts.map fun t => g t.data).sum

theorem sumOver_append {g : TokData → Int} {a b : List Token} : sumOver g (a ++ b) = sumOver g a + sumOver g b := by
  simp [sumOver]

theorem sumOver_cons {g : TokData → Int} {t : Token} {b : List Token} : sumOver g (t :: b) = g t.data + sumOver g b := by
  simp [sumOver]

theorem sumOver_nil {g : TokData → Int} : sumOver g [] = 0 := rfl

theorem sumOver_zero {g : TokData → Int} {a : List Token} (h : ∀ t ∈ a, g t.data = 0) : sumOver g a = 0 := by
  induction a with
  | nil => rfl
  | cons t a ih => rw [sumOver_cons, h t (by simp), ih fun y hy => h y (by simp [hy])]; rfl

theorem sumOver_blockEnds {m : Mark} : sumOver deltaB (blockEnds m cols) = - (cols.length : Int) ∧ sumOver deltaF (blockEnds m cols) = 0 := by
  induction cols with
  | nil => exact ⟨rfl, rfl⟩
  | cons c cols ih =>
    have h1 : blockEnds m (c :: cols) = { data := .blockEnd, start := m, stop := m } :: blockEnds m cols := rfl
    rw [h1, sumOver_cons, sumOver_cons, ih.1, ih.2]
    refine ⟨?_, rfl⟩
    simp only [List.length_cons, deltaB, blockStart]
    simp
    omega

theorem sumOver_closing : sumOver deltaB (x.closing cols) = ((x.within cols).length : Int) - cols.length ∧ sumOver deltaF (x.closing cols) = 0 := by
  unfold Lx.closing Lx.within
  split
  · refine ⟨?_, sumOver_blockEnds.2⟩
    rw [sumOver_blockEnds.1]
    have := congrArg List.length (List.takeWhile_append_dropWhile (p := fun c => decide (x.pos.column < c)) (l := cols))
    simp only [List.length_append] at this
    unfold endedBlocks stillOpen
    omega
  · exact ⟨by rw [sumOver_nil]; omega, rfl⟩

theorem deltaB_start {d : TokData} (h : blockStart d = true) : deltaB d = 1 ∧ deltaF d = 0 := by
  cases d <;> simp_all [blockStart, deltaB, deltaF, flowStart, flowEnd]

theorem deltaB_plain {d : TokData} (h : d ≠ .blockEnd) (h' : blockStart d = false) : deltaB d = 0 := by
  simp [deltaB, h, h']

theorem sumOver_body (hx : Plainly x) :
    sumOver deltaB (x.body cols) = ((x.leaves cols).length : Int) - cols.length ∧ sumOver deltaF (x.body cols) = deltaF x.data := by
  unfold Lx.body Lx.leaves
  simp only [sumOver_append, sumOver_cons, sumOver_nil]
  have ht : deltaB x.token.data = 0 := deltaB_plain hx.1 hx.2.1
  have hk : ∀ g : TokData → Int, g .key = 0 → sumOver g (if x.keyed = true ∧ x.data ≠ .value then [({ data := .key, start := x.pos, stop := x.pos } : Token)] else []) = 0 := by
    intro g hg
    split
    · simp [sumOver, hg]
    · rfl
  rw [hk _ rfl, hk _ rfl, ht]
  have htf : x.token.data = x.data := rfl
  rw [htf]
  by_cases he : endsBlocks x.data = true ∧ x.level = 0
  · rw [if_pos he, if_pos he]
    have hb : x.begins = none := by
      unfold Lx.begins
      split
      · split
        · simp_all [endsBlocks]
        · simp_all [endsBlocks]
        · simp_all [endsBlocks]
        · split
          · rename_i hk
            rw [hx.2.2 hk] at he
            cases he.1
          · rfl
      · rfl
    rw [opening_none hb, sumOver_blockEnds.1, sumOver_blockEnds.2]
    simp [sumOver]
  · rw [if_neg he, if_neg he]
    cases ho : x.opening cols with
    | none => simp [sumOver]
    | some d =>
      have := deltaB_start (opening_start ho).1
      simp [sumOver, this]
      omega

theorem sumOver_layout (h : ∀ x ∈ ls, Plainly x) : sumOver deltaB (layout cols ls) = ((openBlocks cols ls).length : Int) - cols.length ∧
    sumOver deltaF (layout cols ls) = (ls.map fun x => deltaF x.data).sum := by
  induction ls generalizing cols with
  | nil => exact ⟨by simp [layout, openBlocks, sumOver], rfl⟩
  | cons x ls ih =>
    have h1 := sumOver_closing (x := x) (cols := cols)
    have h2 := sumOver_body (cols := x.within cols) (h x (by simp))
    have h3 := ih (cols := x.leaves (x.within cols)) fun y hy => h y (by simp [hy])
    simp only [layout, openBlocks, sumOver_append, List.map_cons, List.sum_cons]
    rw [h1.1, h1.2, h2.1, h2.2, h3.1, h3.2]
    exact ⟨by omega, by omega⟩

theorem Spec.Lexed.flows (h : Lexed T ls u lv key) : (ls.map fun x => deltaF x.data).sum ≤ (lv : Int) := by
  induction h with
  | start => simp
  | @next ls u lv key w v x mid rest key' kd line ls' d h hno hT hf hl hx hm hk hn ih =>
    have he : ls'.map (fun x => deltaF x.data) = ls.map fun x => deltaF x.data := by
      cases hm with
      | other => rfl
      | implicit _ hp => rw [hp.eq]; simp
      | explicit => rfl
    rw [List.map_append, List.sum_append, he]
    simp only [List.map_cons, List.map_nil, List.sum_cons, List.sum_nil]
    have hd : deltaF d + lv ≤ levelAfter lv d := by
      unfold deltaF levelAfter
      cases d <;> simp [flowStart, flowEnd] <;> omega
    omega

theorem sumOver_ge {g : TokData → Int} {p : TokData → Bool} {a : List Token} (h : ∀ t ∈ a, (if p t.data then -1 else 0) ≤ g t.data) :
    - (a.countP (fun t => p t.data) : Int) ≤ sumOver g a := by
  induction a with
  | nil => simp [sumOver]
  | cons t a ih =>
    have h1 := h t (by simp)
    have h2 := ih fun y hy => h y (by simp [hy])
    rw [sumOver_cons, List.countP_cons]
    split at h1
    · rename_i hp
      rw [if_pos (by simpa using hp)]
      push_cast
      omega
    · rename_i hp
      rw [if_neg (by simpa using hp)]
      omega

/-- A token that opens a collection was delivered. Then the depth of the scanner is not much smaller than the number of collections that the
tokens delivered have open; it can be smaller only by flow collections that are closed in the queue or, within few flow collections, by block
collections. -/
theorem near_depth {t : Token} (hk : Known T D s) (hn : Nearby (t :: s.tokens) s.flowLevel) :
    (blockStart t.data = true → sumOver deltaB D ≤ s.indents.length) ∧
    (sumOver deltaB D + sumOver deltaF D ≤ s.indents.length + s.flowLevel + 1024 ∨ (blockStart t.data = false ∧ sumOver deltaF D ≤ 1025)) := by
  obtain ⟨S, ls, u, ⟨en, rfl⟩, hL, hT, hd⟩ := hk
  obtain ⟨h1, h2⟩ := sumOver_layout (cols := []) hL.plainly
  have h3 := hL.flows
  have e1 := congrArg (sumOver deltaB) hT
  have e2 := congrArg (sumOver deltaF) hT
  rw [sumOver_append, sumOver_cons, h1] at e1
  rw [sumOver_append, sumOver_cons, h2] at e2
  rw [show deltaB (.streamStart en) = 0 from rfl] at e1
  rw [show deltaF (.streamStart en) = 0 from rfl] at e2
  simp only [List.length_nil] at e1
  rw [← hd] at e1
  have hF : -1024 ≤ sumOver deltaF s.tokens := by
    have := sumOver_ge (g := deltaF) (p := flowEnd) (a := s.tokens) fun t _ => by
      unfold deltaF
      cases t.data <;> simp [flowStart, flowEnd]
    have h4 := hn.tail.ends
    omega
  have hB : (∀ x ∈ s.tokens, x.data ≠ .blockEnd) → 0 ≤ sumOver deltaB s.tokens := by
    intro h
    have h4 := sumOver_ge (g := deltaB) (p := fun d => decide (d = .blockEnd)) (a := s.tokens) fun t ht => by
      have := h t ht
      unfold deltaB
      rw [if_neg (by simpa using this), if_neg this]
      split <;> omega
    rw [countP_zero (p := fun d => decide (d = .blockEnd)) fun t ht => by simpa using h t ht] at h4
    simpa using h4
  refine ⟨fun hs => ?_, ?_⟩
  · have := hB fun x hx => (List.pairwise_cons.mp hn.after).1 x hx hs
    omega
  · by_cases h : ∀ x ∈ s.tokens, x.data ≠ .blockEnd
    · have := hB h
      left
      omega
    · right
      refine ⟨?_, ?_⟩
      · cases hs : blockStart t.data with
        | false => rfl
        | true => exact absurd (fun x hx => (List.pairwise_cons.mp hn.after).1 x hx hs) h
      · have : s.flowLevel ≤ 1 := hn.low (by
          simp only [Classical.not_forall] at h
          obtain ⟨x, hx, h⟩ := h
          exact ⟨x, by simp [hx], Decidable.not_not.mp h⟩)
        omega

end LibYaml
