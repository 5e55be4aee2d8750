import Verif.Proofs.Containers

/-!
# C12-C14: stacks, queues and strings behave as lists

Each theorem quantifies over all histories of operations and all outcomes of the allocations. The specification is a
transition relation on plain lists (`StkRun`, `QueRun`, `StrRun`).
-/

namespace LibYaml

/-! ### C12 -/

/-- Operations on a stack. The Boolean of `push` is the outcome of the allocation, should there be one. -/
inductive SOp (α : Type) | push (v : α) (ok : Bool) | pop

/-- Observable results. -/
inductive SOut (α : Type) | pushed (r : Bool) | popped (v : α)

/-- Run a history on the modelled stack; `sz` is the element size. -/
def runStk {α : Type} (sz : Nat) : List (SOp α) → Stk α → Except Fail (List (SOut α) × Stk α)
  | [], s => .ok ([], s)
  | .push v ok :: ops, s =>
    match s.push sz ok v with
    | .error e => .error e
    | .ok (r, s) =>
      match runStk sz ops s with
      | .error e => .error e
      | .ok (outs, s) => .ok (.pushed r :: outs, s)
  | .pop :: ops, s =>
    match s.pop with
    | .error e => .error e
    | .ok (v, s) =>
      match runStk sz ops s with
      | .error e => .error e
      | .ok (outs, s) => .ok (.popped v :: outs, s)

/-- Specification of a stack as a list, last element on top. -/
inductive StkRun {α : Type} (sz : Nat) : List α → List (SOp α) → List (SOut α) → List α → Prop
  | nil (l) : StkRun sz l [] [] l
  | push {l v ok ops outs l'} : StkRun sz (l ++ [v]) ops outs l' →
      StkRun sz l (.push v ok :: ops) (.pushed true :: outs) l'
  | refused {l v ok ops outs l'} : (ok = false ∨ l.length * sz ≥ 2147483647 / 2) → StkRun sz l ops outs l' →
      StkRun sz l (.push v ok :: ops) (.pushed false :: outs) l'
  | pop {l v ops outs l'} : StkRun sz l ops outs l' → StkRun sz (l ++ [v]) (.pop :: ops) (.popped v :: outs) l'

theorem runStk_spec {α : Type} (sz : Nat) (ops : List (SOp α)) (s : Stk α) (l : List α) (h : s.Rep l) :
    (∃ outs s' l', runStk sz ops s = .ok (outs, s') ∧ StkRun sz l ops outs l' ∧ s'.Rep l') ∨
    (∃ pre post outs, ops = pre ++ .pop :: post ∧ StkRun sz l pre outs []) := by
  induction ops generalizing s l with
  | nil => left; exact ⟨[], s, l, rfl, .nil l, h⟩
  | cons op ops ih =>
    cases op with
    | push v ok =>
      rcases Stk.push_spec sz ok v h with ⟨s1, p1, p2⟩ | ⟨p1, p2⟩
      · rcases ih s1 _ p2 with ⟨outs, s', l', q1, q2, q3⟩ | ⟨pre, post, outs, q1, q2⟩
        · left; refine ⟨.pushed true :: outs, s', l', ?_, .push q2, q3⟩
          simp only [runStk, p1, q1]
        · right; exact ⟨.push v ok :: pre, post, _, by rw [q1]; rfl, .push q2⟩
      · rcases ih s _ h with ⟨outs, s', l', q1, q2, q3⟩ | ⟨pre, post, outs, q1, q2⟩
        · left; refine ⟨.pushed false :: outs, s', l', ?_, .refused p2 q2, q3⟩
          simp only [runStk, p1, q1]
        · right; exact ⟨.push v ok :: pre, post, _, by rw [q1]; rfl, .refused p2 q2⟩
    | pop =>
      rcases List.eq_nil_or_concat l with rfl | ⟨l0, v, rfl⟩
      · right; exact ⟨[], ops, [], rfl, .nil []⟩
      · rw [List.concat_eq_append] at h ⊢
        obtain ⟨s1, p1, p2⟩ := Stk.pop_spec h
        rcases ih s1 _ p2 with ⟨outs, s', l', q1, q2, q3⟩ | ⟨pre, post, outs, q1, q2⟩
        · left; refine ⟨.popped v :: outs, s', l', ?_, .pop q2, q3⟩
          simp only [runStk, p1, q1]
        · right; exact ⟨.pop :: pre, post, _, by rw [q1]; rfl, .pop q2⟩

/-- **C12.** Every history on a new stack is defined and behaves as on a list, unless it pops an empty stack (which no
caller may do, see C26). The elements lie in order in the allocated block. A push is refused only when allocation
fails or the size limit is reached, and then changes nothing (`StkRun.refused`). -/
theorem C12_stack_refines_list {α : Type} (sz : Nat) (ops : List (SOp α))
    (hpop : ∀ pre post outs, ops = pre ++ .pop :: post → ¬ StkRun sz [] pre outs []) :
    ∃ outs s' l', runStk sz ops (Stk.init α) = .ok (outs, s') ∧ StkRun sz [] ops outs l' ∧
      s'.top = l'.length ∧ s'.mem.take l'.length = l'.map some ∧ l'.length ≤ s'.mem.length := by
  rcases runStk_spec sz ops _ _ (Stk.rep_init α) with ⟨outs, s', l', q1, q2, q3⟩ | ⟨pre, post, outs, q1, q2⟩
  · have ht := q3.top_eq
    exact ⟨outs, s', l', q1, q2, ht, by rw [← ht]; exact q3.cells, by rw [← ht]; exact q3.le⟩
  · exact absurd q2 (hpop pre post outs q1)

/-- Without pops the hypothesis is void: any number of pushes, all succeeding, leaves exactly the pushed elements. -/
theorem C12_pushes_keep_everything {α : Type} (sz : Nat) (vs : List α) (h : vs.length * sz < 2147483647 / 2) :
    ∃ outs s', runStk sz (vs.map fun v => .push v true) (Stk.init α) = .ok (outs, s') ∧
      s'.mem.take vs.length = vs.map some ∧ s'.top = vs.length := by
  have key : ∀ (vs : List α) (l : List α) outs l', (l ++ vs).length * sz < 2147483647 / 2 →
      StkRun sz l (vs.map fun v => SOp.push v true) outs l' → l' = l ++ vs := by
    intro vs
    induction vs with
    | nil => intro l outs l' _ hr; cases hr; simp
    | cons v vs ih =>
      intro l outs l' hb hr
      cases hr with
      | push hr =>
        have := ih (l ++ [v]) _ _ (by simpa using hb) hr
        simpa using this
      | refused hor hr =>
        rcases hor with hor | hor
        · cases hor
        · exfalso
          have : l.length * sz ≤ (l ++ v :: vs).length * sz := Nat.mul_le_mul_right _ (by simp)
          omega
  obtain ⟨outs, s', l', h1, h2, h3, h4, h5⟩ := C12_stack_refines_list (α := α) sz (vs.map fun v => .push v true) (by
    intro pre post outs he
    exfalso
    have : SOp.pop ∈ vs.map (fun v => SOp.push v true) := by rw [he]; simp
    simp at this)
  have := key vs [] outs l' (by simpa using h) h2
  simp only [List.nil_append] at this
  subst this
  exact ⟨outs, s', h1, h4, h3⟩

/-- A history meeting the hypothesis of C12 with pushes, a failing allocation (not needed) and pops. -/
example : ∃ s', runStk 4 [.push 'a' true, .push 'b' false, .pop, .push 'c' true, .pop, .pop] (Stk.init Char) =
    .ok ([.pushed true, .pushed true, .popped 'b', .pushed true, .popped 'c', .popped 'a'], s') := ⟨_, rfl⟩
/-- Popping an empty stack is undefined in the model, so the hypothesis of C12 is needed. -/
example : runStk 4 [.push 'a' true, .pop, .pop] (Stk.init Char) = .error .ub := rfl

/-! ### C13 -/

/-- Operations on a queue. -/
inductive QOp (α : Type) | enqueue (v : α) (ok : Bool) | dequeue | insert (i : Nat) (v : α) (ok : Bool)

/-- Run a history on the modelled queue. -/
def runQue {α : Type} : List (QOp α) → Que α → Except Fail (List (SOut α) × Que α)
  | [], q => .ok ([], q)
  | .enqueue v ok :: ops, q =>
    match q.enqueue ok v with
    | .error e => .error e
    | .ok (r, q) =>
      match runQue ops q with
      | .error e => .error e
      | .ok (outs, q) => .ok (.pushed r :: outs, q)
  | .insert i v ok :: ops, q =>
    match q.insert ok i v with
    | .error e => .error e
    | .ok (r, q) =>
      match runQue ops q with
      | .error e => .error e
      | .ok (outs, q) => .ok (.pushed r :: outs, q)
  | .dequeue :: ops, q =>
    match q.dequeue with
    | .error e => .error e
    | .ok (v, q) =>
      match runQue ops q with
      | .error e => .error e
      | .ok (outs, q) => .ok (.popped v :: outs, q)

/-- Specification of a queue as a list, oldest element first. -/
inductive QueRun {α : Type} : List α → List (QOp α) → List (SOut α) → List α → Prop
  | nil (l) : QueRun l [] [] l
  | enqueue {l v ok ops outs l'} : QueRun (l ++ [v]) ops outs l' →
      QueRun l (.enqueue v ok :: ops) (.pushed true :: outs) l'
  | refused {l v ops outs l'} : QueRun l ops outs l' → QueRun l (.enqueue v false :: ops) (.pushed false :: outs) l'
  | insert {a b v ok ops outs l'} : QueRun (a ++ v :: b) ops outs l' →
      QueRun (a ++ b) (.insert a.length v ok :: ops) (.pushed true :: outs) l'
  | refusedInsert {l i v ops outs l'} : QueRun l ops outs l' →
      QueRun l (.insert i v false :: ops) (.pushed false :: outs) l'
  | dequeue {l v ops outs l'} : QueRun l ops outs l' → QueRun (v :: l) (.dequeue :: ops) (.popped v :: outs) l'

/-- The next operation is not allowed on the list `l`: taking from an empty queue, inserting beyond its end. -/
def QMisuse {α : Type} (l : List α) : QOp α → Prop
  | .dequeue => l = []
  | .insert i _ _ => l.length < i
  | .enqueue _ _ => False

theorem runQue_spec {α : Type} (ops : List (QOp α)) (q : Que α) (l : List α) (h : q.Rep l) :
    (∃ outs q' l', runQue ops q = .ok (outs, q') ∧ QueRun l ops outs l' ∧ q'.Rep l') ∨
    (∃ pre op post outs l', ops = pre ++ op :: post ∧ QueRun l pre outs l' ∧ QMisuse l' op) := by
  induction ops generalizing q l with
  | nil => left; exact ⟨[], q, l, rfl, .nil l, h⟩
  | cons op ops ih =>
    cases op with
    | enqueue v ok =>
      rcases Que.enqueue_spec ok v h with ⟨q1, p1, p2⟩ | ⟨p1, rfl⟩
      · rcases ih q1 _ p2 with ⟨outs, q', l', r1, r2, r3⟩ | ⟨pre, o, post, outs, l', r1, r2, r3⟩
        · left; refine ⟨.pushed true :: outs, q', l', ?_, .enqueue r2, r3⟩
          simp only [runQue, p1, r1]
        · right; exact ⟨.enqueue v ok :: pre, o, post, _, l', by rw [r1]; rfl, .enqueue r2, r3⟩
      · rcases ih q _ h with ⟨outs, q', l', r1, r2, r3⟩ | ⟨pre, o, post, outs, l', r1, r2, r3⟩
        · left; refine ⟨.pushed false :: outs, q', l', ?_, .refused r2, r3⟩
          simp only [runQue, p1, r1]
        · right; exact ⟨.enqueue v false :: pre, o, post, _, l', by rw [r1]; rfl, .refused r2, r3⟩
    | insert i v ok =>
      by_cases hi : i ≤ l.length
      · rcases Que.insert_spec ok i v h hi with ⟨q1, p1, p2⟩ | ⟨p1, rfl⟩
        · have hlen : (l.take i).length = i := by rw [List.length_take]; omega
          have hl : l = l.take i ++ l.drop i := (List.take_append_drop _ _).symm
          have mk : ∀ {ops outs l'}, QueRun (l.take i ++ v :: l.drop i) ops outs l' →
              QueRun l (.insert i v ok :: ops) (.pushed true :: outs) l' := by
            intro ops outs l' hq
            have := QueRun.insert (ok := ok) hq
            rw [hlen, List.take_append_drop] at this
            exact this
          rcases ih q1 _ p2 with ⟨outs, q', l', r1, r2, r3⟩ | ⟨pre, o, post, outs, l', r1, r2, r3⟩
          · left; refine ⟨.pushed true :: outs, q', l', ?_, mk r2, r3⟩
            simp only [runQue, p1, r1]
          · right; exact ⟨.insert i v ok :: pre, o, post, _, l', by rw [r1]; rfl, mk r2, r3⟩
        · rcases ih q _ h with ⟨outs, q', l', r1, r2, r3⟩ | ⟨pre, o, post, outs, l', r1, r2, r3⟩
          · left; refine ⟨.pushed false :: outs, q', l', ?_, .refusedInsert r2, r3⟩
            simp only [runQue, p1, r1]
          · right; exact ⟨.insert i v false :: pre, o, post, _, l', by rw [r1]; rfl, .refusedInsert r2, r3⟩
      · right; exact ⟨[], _, ops, [], l, rfl, .nil l, by simp only [QMisuse]; omega⟩
    | dequeue =>
      cases l with
      | nil => right; exact ⟨[], _, ops, [], [], rfl, .nil [], rfl⟩
      | cons v l =>
        obtain ⟨q1, p1, p2⟩ := Que.dequeue_spec h
        rcases ih q1 _ p2 with ⟨outs, q', l', r1, r2, r3⟩ | ⟨pre, o, post, outs, l', r1, r2, r3⟩
        · left; refine ⟨.popped v :: outs, q', l', ?_, .dequeue r2, r3⟩
          simp only [runQue, p1, r1]
        · right; exact ⟨.dequeue :: pre, o, post, _, l', by rw [r1]; rfl, .dequeue r2, r3⟩

/-- **C13.** Every history on a new queue is defined and behaves as on a list, unless it takes from an empty queue or
inserts beyond the end. A refused operation (only possible when allocation fails) changes nothing. -/
theorem C13_queue_refines_list {α : Type} (ops : List (QOp α))
    (huse : ∀ pre op post outs l, ops = pre ++ op :: post → QueRun [] pre outs l → ¬ QMisuse l op) :
    ∃ outs q' l', runQue ops (Que.init α) = .ok (outs, q') ∧ QueRun [] ops outs l' ∧
      (q'.mem.drop q'.head).take l'.length = l'.map some ∧ q'.tail = q'.head + l'.length ∧
      q'.tail ≤ q'.mem.length := by
  rcases runQue_spec ops _ _ (Que.rep_init α) with ⟨outs, q', l', r1, r2, r3⟩ | ⟨pre, o, post, outs, l', r1, r2, r3⟩
  · exact ⟨outs, q', l', r1, r2, r3.cells, r3.tail, r3.le⟩
  · exact absurd r3 (huse pre o post outs l' r1 r2)

example : ∃ q', runQue [.enqueue 'a' true, .enqueue 'c' true, .insert 1 'b' true, .dequeue, .dequeue, .enqueue 'd' false,
    .dequeue, .dequeue] (Que.init Char) = .ok ([.pushed true, .pushed true, .pushed true, .popped 'a', .popped 'b',
    .pushed true, .popped 'c', .popped 'd'], q') := ⟨_, rfl⟩
/-- Growth and compaction both occur: 17 insertions, one removal, then insertions up to the end of the block. -/
example : ∃ outs q', runQue ((List.replicate 17 (.enqueue 'a' true)) ++ .dequeue ::
    (List.replicate 16 (.enqueue 'b' true))) (Que.init Char) = .ok (outs, q') ∧ q'.mem.length = 32 ∧ q'.head = 0 :=
  ⟨_, _, rfl, rfl, rfl⟩

/-! ### C14 -/

/-- Operations on the text buffers of the scanner, which are numbered: append up to four bytes (one character, a line
break), `JOIN(i, j)`, `CLEAR`. -/
inductive TOp | append (i : Nat) (bytes : List UInt8) (ok : Bool) | join (i j : Nat) (oks : List Bool) | clear (i : Nat)

/-- The caller's obligations: at most four bytes at a time, and the two strings of a join are different. -/
def TOp.Valid : TOp → Prop
  | .append _ bytes _ => bytes.length ≤ 4
  | .join i j _ => i ≠ j
  | .clear _ => True

/-- Run one operation; the Boolean is the result of the macro. -/
def TOp.run (op : TOp) (st : Nat → Str) : Except Fail (Bool × (Nat → Str)) :=
  match op with
  | .append i bytes ok =>
    match (st i).append ok bytes with
    | .error e => .error e
    | .ok (r, s) => .ok (r, fun k => if k = i then s else st k)
  | .join i j oks =>
    match Str.join oks (st i) (st j) with
    | .error e => .error e
    | .ok (r, a, b) => .ok (r, fun k => if k = i then a else if k = j then b else st k)
  | .clear i => .ok (true, fun k => if k = i then (st i).clear else st k)

/-- Run a history, ignoring failures. -/
def runStr : List TOp → (Nat → Str) → Except Fail (List Bool × (Nat → Str))
  | [], st => .ok ([], st)
  | op :: ops, st =>
    match op.run st with
    | .error e => .error e
    | .ok (r, st) =>
      match runStr ops st with
      | .error e => .error e
      | .ok (rs, st) => .ok (r :: rs, st)

/-- Specification: a text per buffer, and whether the buffer has been the source of a join since it was last cleared
(`CLEAR` erases the memory, `JOIN` does not; in the second case no terminating NUL is claimed). -/
structure Txt where
  text : List UInt8 := []
  moved : Bool := false

/-- The effect of a successful operation. -/
def TOp.spec (op : TOp) (t : Nat → Txt) : Nat → Txt :=
  match op with
  | .append i bytes _ => fun k => if k = i then { t i with text := (t i).text ++ bytes } else t k
  | .join i j _ => fun k =>
    if k = i then { t i with text := (t i).text ++ (t j).text }
    else if k = j then { text := [], moved := (t j).moved || !(t j).text.isEmpty } else t k
  | .clear i => fun k => if k = i then {} else t k

/-- May the operation fail? -/
def TOp.MayFail : TOp → Prop
  | .append _ _ ok => ok = false
  | .join _ _ oks => false ∈ oks
  | .clear _ => False

/-- Histories on texts. -/
inductive StrRun : (Nat → Txt) → List TOp → List Bool → (Nat → Txt) → Prop
  | nil (t) : StrRun t [] [] t
  | done {t op ops rs t'} : StrRun (op.spec t) ops rs t' → StrRun t (op :: ops) (true :: rs) t'
  | refused {t op ops rs t'} : op.MayFail → StrRun t ops rs t' → StrRun t (op :: ops) (false :: rs) t'

/-- The relation between modelled buffers and texts. -/
def TRep (st : Nat → Str) (t : Nat → Txt) : Prop :=
  ∀ i, (st i).Rep (t i).text (!(t i).moved) ∧ 16 ≤ (st i).mem.length

theorem top_run_spec (op : TOp) (hv : op.Valid) (st : Nat → Str) (t : Nat → Txt) (h : TRep st t) :
    (∃ st', op.run st = .ok (true, st') ∧ TRep st' (op.spec t)) ∨
    (∃ st', op.run st = .ok (false, st') ∧ TRep st' t ∧ op.MayFail) := by
  cases op with
  | append i bytes ok =>
    obtain ⟨hi, hc⟩ := h i
    rcases Str.append_spec ok bytes hi (by omega) hv with ⟨s', p1, p2, p3⟩ | ⟨p1, p2⟩
    · left
      simp only [TOp.run, p1]
      refine ⟨_, rfl, ?_⟩
      intro k
      simp only [TOp.spec]
      by_cases hk : k = i
      · simp only [if_pos hk]; exact ⟨p2, by omega⟩
      · simp only [if_neg hk]; exact h k
    · right
      simp only [TOp.run, p1]
      refine ⟨_, rfl, ?_, p2⟩
      intro k
      by_cases hk : k = i
      · simp only [if_pos hk]; rw [hk]; exact h i
      · simp only [if_neg hk]; exact h k
  | join i j oks =>
    obtain ⟨hi, hci⟩ := h i
    obtain ⟨hj, hcj⟩ := h j
    have hij : j ≠ i := fun e => hv e.symm
    rcases Str.join_spec oks hi hj with ⟨a', b', p1, p2, p3, p4, p5⟩ | ⟨a', p1, p2, p3, p4⟩
    · left
      simp only [TOp.run, p1]
      refine ⟨_, rfl, ?_⟩
      intro k
      simp only [TOp.spec]
      by_cases hk : k = i
      · simp only [if_pos hk]; exact ⟨p2, by omega⟩
      · simp only [if_neg hk]
        by_cases hk2 : k = j
        · simp only [if_pos hk2]
          refine ⟨?_, by omega⟩
          have e : (!((t j).moved || !(t j).text.isEmpty)) = (!(t j).moved && (t j).text.isEmpty) := by
            cases (t j).moved <;> cases (t j).text.isEmpty <;> rfl
          rw [e]; exact p3
        · simp only [if_neg hk2]; exact h k
    · right
      simp only [TOp.run, p1]
      refine ⟨_, rfl, ?_, p3⟩
      intro k
      by_cases hk : k = i
      · simp only [if_pos hk]; rw [hk]; exact ⟨p2, by omega⟩
      · simp only [if_neg hk]
        by_cases hk2 : k = j
        · simp only [if_pos hk2]; rw [hk2]; exact h j
        · simp only [if_neg hk2]; exact h k
  | clear i =>
    left
    obtain ⟨hi, hc⟩ := h i
    refine ⟨_, rfl, ?_⟩
    intro k
    simp only [TOp.spec]
    by_cases hk : k = i
    · simp only [if_pos hk]
      obtain ⟨c1, c2⟩ := Str.clear_spec (st i) (by omega)
      exact ⟨c1, by omega⟩
    · simp only [if_neg hk]; exact h k

theorem runStr_spec (ops : List TOp) (hv : ∀ op ∈ ops, op.Valid) (st : Nat → Str) (t : Nat → Txt) (h : TRep st t) :
    ∃ rs st' t', runStr ops st = .ok (rs, st') ∧ StrRun t ops rs t' ∧ TRep st' t' := by
  induction ops generalizing st t with
  | nil => exact ⟨[], st, t, rfl, .nil t, h⟩
  | cons op ops ih =>
    have hv' : ∀ op ∈ ops, op.Valid := fun o ho => hv o (List.mem_cons_of_mem _ ho)
    rcases top_run_spec op (hv op List.mem_cons_self) st t h with ⟨st1, p1, p2⟩ | ⟨st1, p1, p2, p3⟩
    · obtain ⟨rs, st', t', q1, q2, q3⟩ := ih hv' st1 _ p2
      exact ⟨true :: rs, st', t', by simp only [runStr, p1, q1], .done q2, q3⟩
    · obtain ⟨rs, st', t', q1, q2, q3⟩ := ih hv' st1 _ p2
      exact ⟨false :: rs, st', t', by simp only [runStr, p1, q1], .refused p3 q2, q3⟩

/-- **C14.** For every history of appends, joins and clears on buffers created by `STRING_INIT` with 16 bytes, and all
allocation outcomes: nothing is accessed outside a buffer, each buffer holds exactly the concatenation of what was
appended since it was last emptied, there is room behind the text, and the byte behind the text is NUL (unless the
buffer was the source of a join and not cleared since; the scanner never takes the value of such a buffer). An
operation fails only when an allocation fails and then changes no text. -/
theorem C14_strings_hold_the_concatenation (ops : List TOp) (hv : ∀ op ∈ ops, op.Valid) :
    ∃ rs st' t', runStr ops (fun _ => Str.init 16) = .ok (rs, st') ∧ StrRun (fun _ => {}) ops rs t' ∧
      ∀ i, (st' i).ptr = (t' i).text.length ∧ (st' i).mem.take (t' i).text.length = (t' i).text ∧
        (t' i).text.length < (st' i).mem.length ∧
        ((t' i).moved = false → (st' i).mem[(t' i).text.length]? = some 0) := by
  obtain ⟨rs, st', t', h1, h2, h3⟩ := runStr_spec ops hv (fun _ => Str.init 16) (fun _ => {})
    (fun i => ⟨Str.rep_init 16 (by decide), by simp [Str.init]⟩)
  refine ⟨rs, st', t', h1, h2, ?_⟩
  intro i
  obtain ⟨hr, hc⟩ := h3 i
  refine ⟨hr.ptr, hr.cells, hr.room, ?_⟩
  intro hm
  have hlt := hr.room
  rw [List.getElem?_eq_getElem hlt]
  congr 1
  apply hr.zero (by rw [hm]; rfl)
  rw [List.drop_eq_getElem_cons hlt]
  exact List.mem_cons_self

/-- A history with growth, join and clear meeting the hypotheses, and its result. -/
example : ∀ op ∈ ((List.range 20).map fun k => TOp.append 0 [UInt8.ofNat k, 1, 2] true) ++ [.append 1 [7] true,
    .join 0 1 [true], .clear 1], op.Valid := by
  intro op h
  rw [List.mem_append, List.mem_map] at h
  rcases h with ⟨k, _, rfl⟩ | h
  · simp [TOp.Valid]
  · simp at h; rcases h with rfl | rfl | rfl <;> simp [TOp.Valid]
example : ∃ st', runStr [.append 0 [1, 2] true, .append 1 [7, 8] true, .join 0 1 [true], .append 1 [9] true, .clear 1]
    (fun _ => Str.init 16) = .ok ([true, true, true, true, true], st') ∧ (st' 0).mem.take 5 = [1, 2, 7, 8, 0] :=
  ⟨_, rfl, rfl⟩
/-- The NUL really is missing in a buffer that was joined and not cleared. -/
example : ∃ rs st', runStr [.append 1 [7, 8] true, .join 0 1 [true], .append 1 [9] true] (fun _ => Str.init 16) =
    .ok (rs, st') ∧ (st' 1).mem.take 3 = [9, 8, 0] ∧ (st' 1).ptr = 1 := ⟨_, _, rfl, rfl, rfl⟩

end LibYaml
