import Verif.Model.Containers

/-! Refinement lemmas for stacks, queues and strings. -/

namespace LibYaml

theorem memcpy_spec {α : Type} (mem bytes : List α) (off : Nat) (h : off + bytes.length ≤ mem.length) :
    ∃ mem', memcpy mem off bytes = .ok mem' ∧ mem'.length = mem.length ∧
      mem'.take (off + bytes.length) = mem.take off ++ bytes ∧
      mem'.drop (off + bytes.length) = mem.drop (off + bytes.length) := by
  unfold memcpy
  rw [if_pos h]
  have hl : (mem.take off ++ bytes).length = off + bytes.length := by
    rw [List.length_append, List.length_take]; omega
  refine ⟨_, rfl, ?_, ?_, ?_⟩
  · rw [List.length_append, hl, List.length_drop]; omega
  · rw [List.take_append_of_le_length (by omega), List.take_of_length_le (by omega)]
  · rw [List.drop_append_of_le_length (by omega), List.drop_eq_nil_of_le (by omega)]; simp

/-! ### Stacks -/

/-- The stack holds the list `l` (bottom first). -/
structure Stk.Rep {α : Type} (s : Stk α) (l : List α) : Prop where
  cells : s.mem.take s.top = l.map some
  le : s.top ≤ s.mem.length
  pos : 0 < s.mem.length

theorem Stk.Rep.top_eq {α : Type} {s : Stk α} {l : List α} (h : s.Rep l) : s.top = l.length := by
  have := congrArg List.length h.cells
  rw [List.length_take, List.length_map] at this
  have := h.le
  omega

theorem Stk.rep_init (α : Type) : (Stk.init α).Rep ([] : List α) :=
  ⟨by simp [Stk.init], by simp [Stk.init], by simp [Stk.init]⟩

theorem Stk.put_spec {α : Type} {s : Stk α} {l : List α} (v : α) (h : s.Rep l) (hlt : s.top < s.mem.length) :
    ∃ s', s.put v = .ok (true, s') ∧ s'.Rep (l ++ [v]) ∧ s'.mem.length = s.mem.length := by
  obtain ⟨mem', m1, m2, m3, m4⟩ := memcpy_spec s.mem [some v] s.top (by simp only [List.length_cons, List.length_nil]; omega)
  unfold Stk.put
  rw [m1]
  refine ⟨_, rfl, ⟨?_, by simp only; omega, by simp only; omega⟩, m2⟩
  simp only [List.length_cons, List.length_nil, Nat.zero_add] at m3 ⊢
  rw [m3, h.cells]; simp

theorem Stk.push_spec {α : Type} {s : Stk α} {l : List α} (sz : Nat) (ok : Bool) (v : α) (h : s.Rep l) :
    (∃ s', s.push sz ok v = .ok (true, s') ∧ s'.Rep (l ++ [v])) ∨
    (s.push sz ok v = .ok (false, s) ∧ (ok = false ∨ l.length * sz ≥ intMax / 2)) := by
  unfold Stk.push
  by_cases hne : s.top ≠ s.mem.length
  · rw [if_pos hne]
    obtain ⟨s', h1, h2, _⟩ := Stk.put_spec v h (by have := h.le; omega)
    exact Or.inl ⟨s', h1, h2⟩
  · rw [if_neg hne]
    have heq : s.top = s.mem.length := by omega
    unfold Stk.extend
    by_cases hsz : s.mem.length * sz ≥ intMax / 2
    · rw [if_pos hsz]
      right
      exact ⟨rfl, Or.inr (by rw [← h.top_eq, heq]; exact hsz)⟩
    · rw [if_neg hsz]
      cases ok with
      | false => right; exact ⟨rfl, Or.inl rfl⟩
      | true =>
        left
        have hpos := h.pos
        have h' : Stk.Rep { s with mem := s.mem ++ List.replicate s.mem.length none } l := by
          refine ⟨?_, by simp only [List.length_append, List.length_replicate]; omega,
            by simp only [List.length_append, List.length_replicate]; omega⟩
          simp only
          rw [List.take_append_of_le_length (by omega)]; exact h.cells
        obtain ⟨s', h1, h2, _⟩ := Stk.put_spec v h' (by
          simp only [List.length_append, List.length_replicate]; omega)
        exact ⟨s', h1, h2⟩

theorem Stk.pop_spec {α : Type} {s : Stk α} {l : List α} {v : α} (h : s.Rep (l ++ [v])) :
    ∃ s', s.pop = .ok (v, s') ∧ s'.Rep l := by
  have ht := h.top_eq
  rw [List.length_append, List.length_cons, List.length_nil] at ht
  have hle := h.le
  have hc := h.cells
  unfold Stk.pop
  split
  · omega
  · rename_i t htop
    have hlt : t = l.length := by omega
    have hget : s.mem[t]? = some (some v) := by
      have : (s.mem.take s.top)[t]? = s.mem[t]? := by
        rw [List.getElem?_take_of_lt (by omega)]
      rw [← this, hc, hlt]
      simp
    rw [hget]
    refine ⟨_, rfl, ⟨?_, by simp only; omega, h.pos⟩⟩
    simp only
    have : s.mem.take t = (s.mem.take s.top).take t := by rw [List.take_take]; congr 1; omega
    rw [this, hc, hlt]
    simp

/-! ### Queues -/

/-- The queue holds the list `l` (head first). -/
structure Que.Rep {α : Type} (q : Que α) (l : List α) : Prop where
  cells : (q.mem.drop q.head).take l.length = l.map some
  tail : q.tail = q.head + l.length
  le : q.tail ≤ q.mem.length
  pos : 0 < q.mem.length

theorem Que.rep_init (α : Type) : (Que.init α).Rep ([] : List α) :=
  ⟨by simp [Que.init], by simp [Que.init], by simp [Que.init], by simp [Que.init]⟩

theorem Que.room_spec {α : Type} {q : Que α} {l : List α} (ok : Bool) (h : q.Rep l) :
    (∃ q', q.room ok = .ok (true, q') ∧ q'.Rep l ∧ q'.tail < q'.mem.length) ∨
    (q.room ok = .ok (false, q) ∧ ok = false) := by
  have hpos := h.pos
  have hle := h.le
  have htl := h.tail
  unfold Que.room
  by_cases hne : q.tail ≠ q.mem.length
  · rw [if_pos hne]; left; exact ⟨q, rfl, h, by omega⟩
  rw [if_neg hne]
  have heq : q.tail = q.mem.length := by omega
  unfold Que.extend
  by_cases hh : q.head = 0
  · cases ok with
    | false => right; rw [if_pos (And.intro hh (And.intro heq rfl))]; exact ⟨rfl, rfl⟩
    | true =>
      left
      rw [if_neg (by simp)]
      have hc : q.head = 0 ∧ q.tail = q.mem.length := ⟨hh, heq⟩
      simp only [if_pos hc, List.length_append, List.length_replicate]
      rw [if_neg (by omega)]
      refine ⟨_, rfl, ⟨?_, htl, by simp only [List.length_append, List.length_replicate]; omega,
        by simp only [List.length_append, List.length_replicate]; omega⟩,
        by simp only [List.length_append, List.length_replicate]; omega⟩
      simp only
      rw [List.drop_append_of_le_length (by omega), List.take_append_of_le_length (by rw [List.length_drop]; omega)]
      exact h.cells
  · left
    rw [if_neg (by simp [hh])]
    have hc : ¬ (q.head = 0 ∧ q.tail = q.mem.length) := by simp [hh]
    simp only [if_neg hc]
    rw [if_pos heq]
    have hn : q.tail - q.head = l.length := by omega
    unfold memread
    rw [if_pos (by omega), hn, h.cells]
    simp only
    obtain ⟨mem', m1, m2, m3, m4⟩ := memcpy_spec q.mem (l.map some) 0 (by simp; omega)
    rw [m1]
    simp only [List.length_map, Nat.zero_add, List.take_zero, List.nil_append] at m3
    exact ⟨_, rfl, ⟨by simpa using m3, by simp, by simp only; omega, by simp only; omega⟩, by simp only; omega⟩

theorem Que.enqueue_spec {α : Type} {q : Que α} {l : List α} (ok : Bool) (v : α) (h : q.Rep l) :
    (∃ q', q.enqueue ok v = .ok (true, q') ∧ q'.Rep (l ++ [v])) ∨ (q.enqueue ok v = .ok (false, q) ∧ ok = false) := by
  unfold Que.enqueue
  rcases Que.room_spec ok h with ⟨q1, r1, r2, r3⟩ | ⟨r1, r2⟩
  · left
    rw [r1]
    simp only
    obtain ⟨mem', m1, m2, m3, m4⟩ := memcpy_spec q1.mem [some v] q1.tail (by simp only [List.length_cons, List.length_nil]; omega)
    rw [m1]
    simp only [List.length_cons, List.length_nil, Nat.zero_add] at m3
    have ht := r2.tail
    refine ⟨_, rfl, ⟨?_, by simp only [List.length_append, List.length_cons, List.length_nil]; omega,
      by simp only; omega, by simp only; have := r2.pos; omega⟩⟩
    simp only [List.length_append, List.length_cons, List.length_nil, List.map_append, List.map_cons, List.map_nil]
    have e1 : (mem'.drop q1.head).take (l.length + (0 + 1)) = (mem'.take (q1.tail + 1)).drop q1.head := by
      rw [List.drop_take]; congr 1; omega
    rw [e1, m3, List.drop_append_of_le_length (by rw [List.length_take]; omega), List.drop_take]
    congr 1
    rw [← r2.cells]; congr 1; omega
  · right; rw [r1]; exact ⟨rfl, r2⟩

theorem Que.dequeue_spec {α : Type} {q : Que α} {l : List α} {v : α} (h : q.Rep (v :: l)) :
    ∃ q', q.dequeue = .ok (v, q') ∧ q'.Rep l := by
  have ht := h.tail
  have hle := h.le
  have hc := h.cells
  rw [List.length_cons] at ht hc
  unfold Que.dequeue
  rw [if_neg (by omega)]
  have hlt : q.head < q.mem.length := by omega
  rw [List.drop_eq_getElem_cons hlt, List.take_succ_cons, List.map_cons] at hc
  injection hc with hc1 hc2
  rw [List.getElem?_eq_getElem hlt, hc1]
  exact ⟨_, rfl, ⟨hc2, by simp only; omega, by simpa using hle, h.pos⟩⟩

theorem Que.insert_spec {α : Type} {q : Que α} {l : List α} (ok : Bool) (i : Nat) (v : α) (h : q.Rep l)
    (hi : i ≤ l.length) :
    (∃ q', q.insert ok i v = .ok (true, q') ∧ q'.Rep (l.take i ++ v :: l.drop i)) ∨
    (q.insert ok i v = .ok (false, q) ∧ ok = false) := by
  unfold Que.insert
  rcases Que.room_spec ok h with ⟨q1, r1, r2, r3⟩ | ⟨r1, r2⟩
  · left
    rw [r1]
    simp only
    have ht := r2.tail
    have hle := r2.le
    rw [if_neg (by omega)]
    unfold memread
    rw [if_pos (by omega)]
    simp only
    have hn : q1.tail - q1.head - i = l.length - i := by omega
    have hcells : ((q1.mem.drop (q1.head + i)).take (l.length - i)) = (l.drop i).map some := by
      rw [← List.drop_drop, ← List.drop_take, r2.cells, List.map_drop]
    rw [hn, hcells]
    have hlen : ((l.drop i).map some).length = l.length - i := by simp
    obtain ⟨mem1, m1, m2, m3, m4⟩ := memcpy_spec q1.mem ((l.drop i).map some) (q1.head + i + 1) (by rw [hlen]; omega)
    rw [m1]
    simp only
    obtain ⟨mem2, n1, n2, n3, n4⟩ := memcpy_spec mem1 [some v] (q1.head + i) (by simp; omega)
    rw [n1]
    simp only [List.length_cons, List.length_nil, Nat.zero_add] at n3 n4
    rw [hlen] at m3 m4
    refine ⟨_, rfl, ⟨?_, ?_, by simp only; omega, by simp only; have := r2.pos; omega⟩⟩
    · -- the cells
      simp only [List.map_append, List.map_cons]
      have hl2 : (l.take i ++ v :: l.drop i).length = l.length + 1 := by
        simp; omega
      rw [hl2]
      -- memory up to the inserted element
      have e1 : mem2.take (q1.head + i + 1) = q1.mem.take (q1.head + i) ++ [some v] := by
        rw [n3]
        congr 1
        have : mem1.take (q1.head + i) = (mem1.take (q1.head + i + 1 + (l.length - i))).take (q1.head + i) := by
          rw [List.take_take]; congr 1; omega
        rw [this, m3, List.take_append_of_le_length (by rw [List.length_take]; omega), List.take_take]
        congr 1; omega
      -- memory behind it
      have e2 : (mem2.drop (q1.head + i + 1)).take (l.length - i) = (l.drop i).map some := by
        rw [n4]
        have := congrArg (List.drop (q1.head + i + 1)) m3
        rw [List.drop_take] at this
        have hs : q1.head + i + 1 + (l.length - i) - (q1.head + i + 1) = l.length - i := by omega
        rw [hs] at this
        rw [this, List.drop_append_of_le_length (by rw [List.length_take]; omega), List.drop_eq_nil_of_le
          (by rw [List.length_take]; omega)]
        simp
      have e3 : mem2.drop q1.head = (mem2.take (q1.head + i + 1)).drop q1.head ++ mem2.drop (q1.head + i + 1) := by
        have : mem2 = mem2.take (q1.head + i + 1) ++ mem2.drop (q1.head + i + 1) := (List.take_append_drop _ _).symm
        conv => lhs; rw [this]
        rw [List.drop_append_of_le_length (by rw [List.length_take]; omega)]
      rw [e3, e1, List.drop_append_of_le_length (by rw [List.length_take]; omega)]
      have e4 : (q1.mem.take (q1.head + i)).drop q1.head = (l.take i).map some := by
        rw [List.drop_take]
        have hs : q1.head + i - q1.head = i := by omega
        rw [hs]
        have : (q1.mem.drop q1.head).take i = ((q1.mem.drop q1.head).take l.length).take i := by
          rw [List.take_take]; congr 1; omega
        rw [this, r2.cells, List.map_take]
      rw [e4]
      have hli : ((l.take i).map some ++ [some v]).length = i + 1 := by simp; omega
      have hsplit : l.length + 1 = (i + 1) + (l.length - i) := by omega
      rw [hsplit, ← hli, List.take_length_add_append, e2]
      simp
    · simp only [List.length_append, List.length_cons, List.length_take, List.length_drop]; omega
  · right; rw [r1]; exact ⟨rfl, r2⟩

/-! ### Strings -/

/-- The string holds the bytes `l`, there is room for at least one more byte, and if `z` is set the rest of the memory
is zero. -/
structure Str.Rep (s : Str) (l : List UInt8) (z : Bool) : Prop where
  cells : s.mem.take l.length = l
  ptr : s.ptr = l.length
  room : l.length < s.mem.length
  zero : z = true → ∀ b ∈ s.mem.drop l.length, b = 0

theorem Str.rep_init (n : Nat) (h : 0 < n) : (Str.init n).Rep [] true :=
  ⟨by simp, rfl, by simpa [Str.init] using h, by simp [Str.init]⟩

theorem Str.clear_spec (s : Str) (h : 0 < s.mem.length) : s.clear.Rep [] true ∧ s.clear.mem.length = s.mem.length :=
  ⟨⟨by simp, rfl, by simpa [Str.clear] using h, by simp [Str.clear]⟩, by simp [Str.clear]⟩

theorem Str.extend_rep {s : Str} {l : List UInt8} {z : Bool} (h : s.Rep l z) :
    Str.Rep { s with mem := s.mem ++ List.replicate s.mem.length 0 } l z := by
  have hr := h.room
  refine ⟨?_, h.ptr, by simp only [List.length_append]; omega, ?_⟩
  · simp only
    rw [List.take_append_of_le_length (by omega)]; exact h.cells
  · intro hz b hb
    simp only at hb
    rw [List.drop_append_of_le_length (by omega), List.mem_append] at hb
    rcases hb with hb | hb
    · exact h.zero hz b hb
    · exact (List.mem_replicate.mp hb).2

theorem Str.write_rep {s : Str} {l bytes : List UInt8} {z : Bool} (h : s.Rep l z)
    (hb : l.length + bytes.length < s.mem.length) :
    ∃ mem, memcpy s.mem s.ptr bytes = .ok mem ∧ mem.length = s.mem.length ∧
      Str.Rep { mem := mem, ptr := s.ptr + bytes.length } (l ++ bytes) z := by
  have hp := h.ptr
  obtain ⟨mem', m1, m2, m3, m4⟩ := memcpy_spec s.mem bytes s.ptr (by omega)
  refine ⟨mem', m1, m2, ⟨?_, by simp only [List.length_append]; omega, by simp only [List.length_append]; omega, ?_⟩⟩
  · simp only [List.length_append]
    rw [← hp, m3, hp, h.cells]
  · intro hz b hb
    simp only [List.length_append] at hb
    rw [← hp, m4, ← List.drop_drop, hp] at hb
    exact h.zero hz b (List.mem_of_mem_drop hb)

theorem Str.append_spec {s : Str} {l : List UInt8} {z : Bool} (ok : Bool) (bytes : List UInt8) (h : s.Rep l z)
    (hcap : 4 ≤ s.mem.length) (hb : bytes.length ≤ 4) :
    (∃ s', s.append ok bytes = .ok (true, s') ∧ s'.Rep (l ++ bytes) z ∧ s.mem.length ≤ s'.mem.length) ∨
    (s.append ok bytes = .ok (false, s) ∧ ok = false) := by
  have hp := h.ptr
  have hr := h.room
  unfold Str.append Str.room
  by_cases hroom : s.ptr + 5 < s.mem.length
  · rw [if_pos hroom]
    left
    obtain ⟨mem, m1, m2, m3⟩ := Str.write_rep (bytes := bytes) h (by omega)
    simp only [m1]
    exact ⟨_, rfl, m3, by simp only; omega⟩
  · rw [if_neg hroom]
    unfold Str.extend
    cases ok with
    | false => right; exact ⟨rfl, rfl⟩
    | true =>
      left
      simp only [if_true]
      obtain ⟨mem, m1, m2, m3⟩ := Str.write_rep (bytes := bytes) (Str.extend_rep h)
        (by simp only [List.length_append, List.length_replicate]; omega)
      simp only at m1 m2 m3
      simp only [m1]
      exact ⟨_, rfl, m3, by simp only [m2, List.length_append]; omega⟩

theorem Str.grow_spec (n fuel : Nat) (oks : List Bool) (a : Str) (l : List UInt8) (z : Bool) (h : a.Rep l z)
    (hf : n + 1 - (a.mem.length - l.length) < fuel) :
    (∃ a', a.grow n fuel oks = .ok (true, a') ∧ a'.Rep l z ∧ n < a'.mem.length - l.length ∧
      a.mem.length ≤ a'.mem.length) ∨
    (∃ a', a.grow n fuel oks = .ok (false, a') ∧ a'.Rep l z ∧ false ∈ oks ∧ a.mem.length ≤ a'.mem.length) := by
  induction fuel generalizing a oks with
  | zero => omega
  | succ fuel ih =>
    have hr := h.room
    unfold Str.grow
    rw [h.ptr]
    by_cases hle : a.mem.length - l.length ≤ n
    · rw [if_pos hle]
      unfold Str.extend
      cases hok : oks.headD true with
      | false =>
        right
        have : false ∈ oks := by
          cases oks with
          | nil => simp at hok
          | cons o oks => simp at hok; simp [hok]
        exact ⟨a, rfl, h, this, Nat.le_refl _⟩
      | true =>
        simp only [if_true]
        rcases ih oks.tail _ (Str.extend_rep h) (by simp only [List.length_append, List.length_replicate]; omega) with
          ⟨a', g1, g2, g3, g4⟩ | ⟨a', g1, g2, g3, g4⟩
        · left
          exact ⟨a', g1, g2, g3, by simp only [List.length_append] at g4; omega⟩
        · right
          exact ⟨a', g1, g2, List.mem_of_mem_tail g3, by simp only [List.length_append] at g4; omega⟩
    · rw [if_neg hle]
      left; exact ⟨a, rfl, h, by omega, Nat.le_refl _⟩

theorem Str.join_spec {a b : Str} {la lb : List UInt8} {z zb : Bool} (oks : List Bool) (ha : a.Rep la z)
    (hb : b.Rep lb zb) :
    (∃ a' b', Str.join oks a b = .ok (true, a', b') ∧ a'.Rep (la ++ lb) z ∧ b'.Rep [] (zb && lb.isEmpty) ∧
      a.mem.length ≤ a'.mem.length ∧ b'.mem.length = b.mem.length) ∨
    (∃ a', Str.join oks a b = .ok (false, a', b) ∧ a'.Rep la z ∧ false ∈ oks ∧ a.mem.length ≤ a'.mem.length) := by
  have hbr := hb.room
  have hp := hb.ptr
  unfold Str.join
  by_cases h0 : b.ptr = 0
  · rw [if_pos h0]
    have : lb = [] := by rw [h0] at hp; exact List.length_eq_zero_iff.mp hp.symm
    subst this
    left
    refine ⟨a, _, rfl, by simpa using ha, ⟨by simp, rfl, by simpa using hbr, ?_⟩, Nat.le_refl _, rfl⟩
    intro hz
    exact hb.zero (by simpa using hz)
  · rw [if_neg h0]
    rcases Str.grow_spec b.ptr (b.ptr + 2) oks a la z ha (by omega) with ⟨a', g1, g2, g3, g4⟩ | ⟨a', g1, g2, g3, g4⟩
    · left
      rw [g1]
      simp only [memread]
      rw [if_pos (by omega)]
      simp only [List.drop_zero]
      rw [hp, hb.cells]
      obtain ⟨mem, m1, m2, m3⟩ := Str.write_rep (bytes := lb) g2 (by omega)
      rw [m1]
      refine ⟨_, _, rfl, m3, ⟨by simp, rfl, by simp only [List.length_nil]; omega, ?_⟩, by simp only; omega, rfl⟩
      intro hz
      rw [Bool.and_eq_true] at hz
      have : lb = [] := by simpa using hz.2
      rw [this] at hp; exact absurd hp h0
    · right
      rw [g1]
      exact ⟨a', rfl, g2, g3, g4⟩

end LibYaml
