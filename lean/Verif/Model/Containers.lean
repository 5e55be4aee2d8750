import Verif.Model.Basic

/-!
# Model of the stacks, queues and strings (`src/yaml_private.h:80-164, 414-493`, `src/api.c:69-169`)

A block of memory is a list of cells; its length is the allocated size. Pointers into the block are offsets. Reading or
writing outside the block is `Fail.ub`. Cells of stacks and queues are `Option α`: `none` is uninitialised memory, and
reading it is `Fail.ub` as well. Every operation that may allocate takes a Boolean `mem_ok` saying whether
`yaml_realloc` succeeds. That `realloc` may move the block is not visible, because all pointers into it are offsets.
-/

namespace LibYaml

/-- `memcpy(mem + off, vals, ...)` and stores of consecutive cells: undefined outside the block. -/
def memcpy {α : Type} (mem : List α) (off : Nat) (vals : List α) : Except Fail (List α) :=
  if off + vals.length ≤ mem.length then .ok (mem.take off ++ vals ++ mem.drop (off + vals.length)) else .error .ub

/-- Read `n` consecutive cells. -/
def memread {α : Type} (mem : List α) (off n : Nat) : Except Fail (List α) :=
  if off + n ≤ mem.length then .ok ((mem.drop off).take n) else .error .ub

/-! ## Stacks -/

/-- A stack `{start, end, top}`: `mem.length = end - start`, `top = top - start`. -/
structure Stk (α : Type) where
  mem : List (Option α)
  top : Nat := 0

/-- `INT_MAX` (limits.h) for a 32-bit `int`. -/
def intMax : Nat := 2147483647

/-- yaml_private.h:423-430 `STACK_INIT`, when the allocation succeeds; `INITIAL_STACK_SIZE` is 16 (84). -/
def Stk.init (α : Type) : Stk α := { mem := List.replicate 16 none }

/-- api.c:117-135 `yaml_stack_extend`; `sz` is the size of an element in bytes. -/
def Stk.extend {α : Type} (sz : Nat) (mem_ok : Bool) (s : Stk α) : Bool × Stk α :=
  if s.mem.length * sz ≥ intMax / 2 then (false, s)
  else if mem_ok then (true, { s with mem := s.mem ++ List.replicate s.mem.length none })
  else (false, s)

/-- `*(stack.top++) = value` -/
def Stk.put {α : Type} (v : α) (s : Stk α) : Except Fail (Bool × Stk α) :=
  match memcpy s.mem s.top [some v] with
  | .error e => .error e
  | .ok mem => .ok (true, { mem := mem, top := s.top + 1 })

/-- yaml_private.h:445-453 `PUSH` -/
def Stk.push {α : Type} (sz : Nat) (mem_ok : Bool) (v : α) (s : Stk α) : Except Fail (Bool × Stk α) :=
  if s.top ≠ s.mem.length then s.put v
  else
    match s.extend sz mem_ok with
    | (true, s) => s.put v
    | (false, s) => .ok (false, s)

/-- yaml_private.h:455-456 `POP` -/
def Stk.pop {α : Type} (s : Stk α) : Except Fail (α × Stk α) :=
  match s.top with
  | 0 => .error .ub
  | t + 1 =>
    match s.mem[t]? with
    | some (some v) => .ok (v, { s with top := t })
    | _ => .error .ub

/-! ## Queues -/

/-- A queue `{start, end, head, tail}` as offsets from `start`. -/
structure Que (α : Type) where
  mem : List (Option α)
  head : Nat := 0
  tail : Nat := 0

/-- yaml_private.h:458-465 `QUEUE_INIT` with `INITIAL_QUEUE_SIZE` 16 (85). -/
def Que.init (α : Type) : Que α := { mem := List.replicate 16 none }

/-- api.c:141-169 `yaml_queue_extend` -/
def Que.extend {α : Type} (mem_ok : Bool) (q : Que α) : Except Fail (Bool × Que α) :=
  if q.head = 0 ∧ q.tail = q.mem.length ∧ mem_ok = false then .ok (false, q)               -- 146-150
  else
    let q := if q.head = 0 ∧ q.tail = q.mem.length then
        { q with mem := q.mem ++ List.replicate q.mem.length none } else q                 -- 146-156
    if q.tail = q.mem.length then                                                            -- 160-166
      match memread q.mem q.head (q.tail - q.head) with
      | .error e => .error e
      | .ok cells =>
        match memcpy q.mem 0 cells with
        | .error e => .error e
        | .ok mem => .ok (true, { mem := mem, head := 0, tail := q.tail - q.head })
    else .ok (true, q)

/-- The common prefix of `ENQUEUE` and `QUEUE_INSERT`. -/
def Que.room {α : Type} (mem_ok : Bool) (q : Que α) : Except Fail (Bool × Que α) :=
  if q.tail ≠ q.mem.length then .ok (true, q) else q.extend mem_ok

/-- yaml_private.h:474-482 `ENQUEUE` -/
def Que.enqueue {α : Type} (mem_ok : Bool) (v : α) (q : Que α) : Except Fail (Bool × Que α) :=
  match q.room mem_ok with
  | .error e => .error e
  | .ok (false, q) => .ok (false, q)
  | .ok (true, q) =>
    match memcpy q.mem q.tail [some v] with
    | .error e => .error e
    | .ok mem => .ok (true, { q with mem := mem, tail := q.tail + 1 })

/-- yaml_private.h:484-485 `DEQUEUE`. Undefined on an empty queue. -/
def Que.dequeue {α : Type} (q : Que α) : Except Fail (α × Que α) :=
  if q.head = q.tail then .error .ub
  else
    match q.mem[q.head]? with
    | some (some v) => .ok (v, { q with head := q.head + 1 })
    | _ => .error .ub

/-- yaml_private.h:487-498 `QUEUE_INSERT`. `tail - head - index` is an unsigned difference; if it would wrap the
`memmove` is undefined. -/
def Que.insert {α : Type} (mem_ok : Bool) (index : Nat) (v : α) (q : Que α) : Except Fail (Bool × Que α) :=
  match q.room mem_ok with
  | .error e => .error e
  | .ok (false, q) => .ok (false, q)
  | .ok (true, q) =>
    if q.tail < q.head + index then .error .ub
    else
      match memread q.mem (q.head + index) (q.tail - q.head - index) with
      | .error e => .error e
      | .ok cells =>
        match memcpy q.mem (q.head + index + 1) cells with
        | .error e => .error e
        | .ok mem =>
          match memcpy mem (q.head + index) [some v] with
          | .error e => .error e
          | .ok mem => .ok (true, { q with mem := mem, tail := q.tail + 1 })

/-! ## Strings -/

/-- A string `{start, end, pointer}`. -/
structure Str where
  mem : List UInt8
  ptr : Nat := 0

/-- yaml_private.h:130-137 `STRING_INIT`: the memory is cleared. -/
def Str.init (size : Nat) : Str := { mem := List.replicate size 0 }

/-- api.c:73-88 `yaml_string_extend`: the new half is cleared. -/
def Str.extend (mem_ok : Bool) (s : Str) : Bool × Str :=
  if mem_ok then (true, { s with mem := s.mem ++ List.replicate s.mem.length 0 }) else (false, s)

/-- yaml_private.h:143-149 `STRING_EXTEND` -/
def Str.room (mem_ok : Bool) (s : Str) : Bool × Str :=
  if s.ptr + 5 < s.mem.length then (true, s) else s.extend mem_ok

/-- `STRING_EXTEND` followed by stores of up to four bytes: `READ` (scanner.c:519-526), `READ_LINE` (531-572), the
escapes in scanner.c:3199-3260 and so on. -/
def Str.append (mem_ok : Bool) (bytes : List UInt8) (s : Str) : Except Fail (Bool × Str) :=
  match s.room mem_ok with
  | (false, s) => .ok (false, s)
  | (true, s) =>
    match memcpy s.mem s.ptr bytes with
    | .error e => .error e
    | .ok mem => .ok (true, { mem := mem, ptr := s.ptr + bytes.length })

/-- yaml_private.h:151-153 `CLEAR` -/
def Str.clear (s : Str) : Str := { mem := List.replicate s.mem.length 0 }

/-- api.c:102-105: extend `a` until there is room for `n` bytes and one more. `oks` gives the outcome of the
successive allocations; the fuel bounds the number of rounds. -/
def Str.grow (n : Nat) : Nat → List Bool → Str → Except Fail (Bool × Str)
  | 0, _, _ => .error .fuel
  | fuel + 1, oks, a =>
    if a.mem.length - a.ptr ≤ n then
      match a.extend (oks.headD true) with
      | (false, a) => .ok (false, a)
      | (true, a) => Str.grow n fuel oks.tail a
    else .ok (true, a)

/-- api.c:94-112 `yaml_string_join` and yaml_private.h:155-164 `JOIN`: append `b` to `a`; on success `b` is rewound to
its start (its memory is not cleared). -/
def Str.join (oks : List Bool) (a b : Str) : Except Fail (Bool × Str × Str) :=
  if b.ptr = 0 then .ok (true, a, { b with ptr := 0 })
  else
    match a.grow b.ptr (b.ptr + 2) oks with
    | .error e => .error e
    | .ok (false, a) => .ok (false, a, b)
    | .ok (true, a) =>
      match memread b.mem 0 b.ptr with
      | .error e => .error e
      | .ok bytes =>
        match memcpy a.mem a.ptr bytes with
        | .error e => .error e
        | .ok mem => .ok (true, { mem := mem, ptr := a.ptr + b.ptr }, { b with ptr := 0 })

end LibYaml
