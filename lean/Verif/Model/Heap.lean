import Verif.Model.Containers
import Verif.Model.Dumper
import Verif.Model.Emitter
import Verif.Model.Scanner
import Verif.Model.Types
import Verif.Model.Writer

/-!
# A heap for the objects of the API

The rest of the model treats strings, stacks and nodes as values. Here they live in a heap: a block has an address and a content, an
allocation may fail, and `free` of an address that is not allocated is undefined. Functions of `src/api.c` that create and destroy
events and documents are modelled over this heap to speak about leaks, double frees and dangling pointers. `realloc` always moves the block
(the worst case); only whole blocks can be freed.
-/

namespace LibYaml

/-- A pointer: `none` is `NULL`. -/
abbrev Ptr := Option Nat

/-- A stack in the heap: `start` and the offset of `top`; `end` is the end of the block. -/
structure HStk where
  start : Ptr := none
  top : Nat := 0
  deriving DecidableEq, Repr

/-- A queue in the heap: `start` and the offsets of `head` and `tail`; `end` is the end of the block. -/
structure HQue where
  start : Ptr := none
  head : Nat := 0
  tail : Nat := 0
  deriving DecidableEq, Repr

/-- yaml.h:719-777 `yaml_node_t` with pointers. Marks are omitted: the API sets them to zero. -/
inductive HNode
  | scalar (tag value : Ptr) (length : Nat) (style : ScalarStyle)
  | sequence (tag : Ptr) (items : HStk) (style : CollStyle)
  | mapping (tag : Ptr) (pairs : HStk) (style : CollStyle)
  deriving DecidableEq, Repr

/-- yaml.h:378-480 `yaml_event_t` with pointers. `tags` is `start`; its `top` is `end`. -/
inductive HEvent
  | streamStart (enc : Option Spec.Enc)
  | streamEnd
  | documentStart (version : Ptr) (tags : HStk) (implicit : Bool)
  | documentEnd (implicit : Bool)
  | alias (anchor : Ptr)
  | scalar (anchor tag value : Ptr) (length : Nat) (plainImplicit quotedImplicit : Bool) (style : ScalarStyle)
  | sequenceStart (anchor tag : Ptr) (implicit : Bool) (style : CollStyle)
  | sequenceEnd
  | mappingStart (anchor tag : Ptr) (implicit : Bool) (style : CollStyle)
  | mappingEnd
  deriving DecidableEq, Repr

/-- yaml.h:259-323 `yaml_token_t` with pointers. Tokens without strings are `plain`. -/
inductive HTokData
  | plain (d : TokData)
  | tagDirective (handle pfx : Ptr)
  | alias (value : Ptr)
  | anchor (value : Ptr)
  | tag (handle suffix : Ptr)
  | scalar (value : Ptr) (length : Nat) (style : ScalarStyle)
  deriving DecidableEq, Repr

structure HToken where
  data : HTokData
  start : Mark
  stop : Mark
  deriving DecidableEq, Repr

/-- Contents of a block. Cells of stacks that were not written are `none`. -/
inductive Obj
  | bytes (b : List UInt8)
  | version (v : Version)
  | dirs (cells : List (Option (Ptr × Ptr)))
  | items (cells : List (Option Int))
  | pairs (cells : List (Option (Int × Int)))
  | nodes (cells : List (Option HNode))
  | aliases (cells : List (Option (Ptr × Nat)))
  | anchs (cells : List Anch)
  | states (cells : List (Option PState))
  | marks (cells : List (Option Mark))
  | events (cells : List (Option HEvent))
  | estates (cells : List (Option EState))
  | tokens (cells : List (Option HToken))
  | keys (cells : List (Option SimpleKey))
  deriving DecidableEq, Repr

/-- The allocated blocks, an address beyond all of them, and the outcomes of the allocations to come. -/
structure Heap where
  mem : Nat → Option Obj
  next : Nat
  ok : Nat → Bool

/-- Programs over the heap. -/
abbrev HM (α : Type) := Heap → Except Fail (α × Heap)

def HM.bind {α β : Type} (m : HM α) (k : α → HM β) : HM β := fun h =>
  match m h with
  | .error e => .error e
  | .ok (a, h) => k a h

instance : Monad HM where
  pure a := fun h => .ok (a, h)
  bind := HM.bind

/-- The heap with another content at one address. -/
def Heap.set (h : Heap) (p : Nat) (o : Option Obj) : Heap := { h with mem := fun q => if q = p then o else h.mem q }

/-- api.c:31-35 `yaml_malloc`, with the content that is stored at once. -/
def malloc (o : Obj) : HM Ptr := fun h =>
  if h.ok 0 then .ok (some h.next, { (h.set h.next (some o)) with next := h.next + 1, ok := fun k => h.ok (k + 1) })
  else .ok (none, { h with ok := fun k => h.ok (k + 1) })

/-- api.c:51-55 `yaml_free` -/
def free : Ptr → HM Unit
  | none => fun h => .ok ((), h)
  | some p => fun h =>
    match h.mem p with
    | none => .error .ub
    | some _ => .ok ((), h.set p none)

/-- Reading a block. -/
def loadObj : Ptr → HM Obj
  | none => fun _ => .error .ub
  | some p => fun h =>
    match h.mem p with
    | none => .error .ub
    | some o => .ok (o, h)

/-- Writing a block. -/
def store : Ptr → Obj → HM Unit
  | none, _ => fun _ => .error .ub
  | some p, o => fun h =>
    match h.mem p with
    | none => .error .ub
    | some _ => .ok ((), h.set p (some o))

/-- `assert` -/
def assertH (b : Bool) : HM Unit := fun h => if b then .ok ((), h) else .error .ub

/-- `strlen` of the bytes of a buffer: undefined without a NUL. -/
def strlen : List UInt8 → HM Nat
  | [] => fun _ => .error .ub
  | b :: r => if b = 0 then pure 0 else do return (← strlen r) + 1

/-- The first `n` bytes of a buffer: undefined beyond its end. -/
def bytesOf (buf : List UInt8) (n : Nat) : HM (List UInt8) := if n ≤ buf.length then pure (buf.take n) else fun _ => .error .ub

/-- The types of stack elements: how their block looks, and `sizeof`. -/
class Cell (α : Type) where
  wrap : List (Option α) → Obj
  unwrap : Obj → Option (List (Option α))
  size : Nat

instance : Cell (Ptr × Ptr) where
  wrap := .dirs
  unwrap := fun | .dirs c => some c | _ => none
  size := 16

instance : Cell Int where
  wrap := .items
  unwrap := fun | .items c => some c | _ => none
  size := 4

instance : Cell (Int × Int) where
  wrap := .pairs
  unwrap := fun | .pairs c => some c | _ => none
  size := 8

instance : Cell HNode where
  wrap := .nodes
  unwrap := fun | .nodes c => some c | _ => none
  size := 96

/-- yaml.h:1071-1078 `yaml_alias_data_t`: `anchor` and `index`; the mark is omitted. -/
instance : Cell (Ptr × Nat) where
  wrap := .aliases
  unwrap := fun | .aliases c => some c | _ => none
  size := 40

instance : Cell PState where
  wrap := .states
  unwrap := fun | .states c => some c | _ => none
  size := 4

instance : Cell Mark where
  wrap := .marks
  unwrap := fun | .marks c => some c | _ => none
  size := 24

/-- `sizeof(yaml_event_t)` is 104. -/
instance : Cell HEvent where
  wrap := .events
  unwrap := fun | .events c => some c | _ => none
  size := 104

instance : Cell EState where
  wrap := .estates
  unwrap := fun | .estates c => some c | _ => none
  size := 4

/-- `sizeof(yaml_token_t)` is 80. -/
instance : Cell HToken where
  wrap := .tokens
  unwrap := fun | .tokens c => some c | _ => none
  size := 80

/-- `sizeof(yaml_simple_key_t)` is 40. -/
instance : Cell SimpleKey where
  wrap := .keys
  unwrap := fun | .keys c => some c | _ => none
  size := 40

section
variable (α : Type) [Cell α]

/-- yaml_private.h:423-429 `STACK_INIT` -/
def hInit : HM (Bool × HStk) := do
  let p ← malloc (Cell.wrap (List.replicate 16 (none : Option α)))
  return (p.isSome, { start := p, top := 0 })

/-- The cells of a stack. -/
def hCells (s : HStk) : HM (List (Option α)) := do
  match Cell.unwrap (α := α) (← loadObj s.start) with
  | some c => return c
  | none => fun _ => .error .ub

variable {α}

/-- `*(stack.top++) = value` -/
def hPut (v : α) (s : HStk) (cells : List (Option α)) : HM (Bool × HStk) := do
  match memcpy cells s.top [some v] with
  | .error e => fun _ => .error e
  | .ok cells => do
    store s.start (Cell.wrap cells)
    return (true, { s with top := s.top + 1 })

/-- yaml_private.h:445-453 `PUSH` with api.c:117-135 `yaml_stack_extend` -/
def hPush (v : α) (s : HStk) : HM (Bool × HStk) := do
  let cells ← hCells α s
  if s.top ≠ cells.length then hPut v s cells
  else if cells.length * Cell.size α ≥ intMax / 2 then return (false, s)
  else do
    match ← malloc (Cell.wrap (cells ++ List.replicate cells.length (none : Option α))) with
    | none => return (false, s)
    | some p => do
      free s.start
      hPut v { s with start := some p } (cells ++ List.replicate cells.length none)

/-- Reading an element that was written. -/
def hGet (i : Nat) (s : HStk) : HM α := do
  match (← hCells α s)[i]? with
  | some (some v) => return v
  | _ => fun _ => .error .ub

/-- yaml_private.h:455-456 `POP`. The cell counts as not written afterwards, so reading it again would be undefined. -/
def hPop (s : HStk) : HM (α × HStk) := do
  if s.top = 0 then fun _ => .error .ub
  else do
    let cells ← hCells α s
    match cells[s.top - 1]? with
    | some (some v) => do
      store s.start (Cell.wrap (cells.set (s.top - 1) none))
      return (v, { s with top := s.top - 1 })
    | _ => fun _ => .error .ub

/-- Writing an element. -/
def hSet (i : Nat) (v : α) (s : HStk) : HM Unit := do
  match memcpy (← hCells α s) i [some v] with
  | .error e => fun _ => .error e
  | .ok cells => store s.start (Cell.wrap cells)

end

/-! ### Queues -/

section
variable (α : Type) [Cell α]

/-- yaml_private.h:458-464 `QUEUE_INIT` with `INITIAL_QUEUE_SIZE` -/
def qInit : HM (Bool × HQue) := do
  let p ← malloc (Cell.wrap (List.replicate 16 (none : Option α)))
  return (p.isSome, { start := p })

variable {α}

def qCells (q : HQue) : HM (List (Option α)) := hCells α ⟨q.start, 0⟩

/-- api.c:147-159: resize the queue. -/
def qGrow (q : HQue) (cells : List (Option α)) : HM (Bool × HQue × List (Option α)) := do
  if q.head = 0 ∧ q.tail = cells.length then do
    let cells2 := cells ++ List.replicate cells.length none
    match ← malloc (Cell.wrap cells2) with
    | none => return (false, q, cells)
    | some p => do
      free q.start
      return (true, { q with start := some p }, cells2)
  else return (true, q, cells)

/-- api.c:163-169: move the queue to the beginning of the buffer. The cells behind it count as not written afterwards. -/
def qMove (q : HQue) (cells : List (Option α)) : HQue × List (Option α) :=
  if q.tail = cells.length then
    let live := (cells.take q.tail).drop q.head
    ({ q with head := 0, tail := q.tail - q.head }, live ++ List.replicate (cells.length - live.length) none)
  else (q, cells)

/-- `*(queue.tail++) = value` -/
def qPut (v : α) (q : HQue) (cells : List (Option α)) : HM (Bool × HQue) := do
  match memcpy cells q.tail [some v] with
  | .error x => fun _ => .error x
  | .ok cells => do
    store q.start (Cell.wrap cells)
    return (true, { q with tail := q.tail + 1 })

/-- yaml_private.h:473-481 `ENQUEUE` with api.c:142-172 `yaml_queue_extend` -/
def qPush (v : α) (q : HQue) : HM (Bool × HQue) := do
  let cells ← qCells q
  if q.tail ≠ cells.length then qPut v q cells
  else do
    let (ok, q, cells) ← qGrow q cells
    if !ok then return (false, q)
    else do
      let (q, cells) := qMove q cells
      qPut v q cells

/-- `queue.head[i]` -/
def qAt (q : HQue) (i : Nat) : HM α := do
  match (← qCells q)[q.head + i]? with
  | some (some v) => return v
  | _ => fun _ => .error .ub

/-- yaml_private.h:483-484 `DEQUEUE`. The cell counts as not written afterwards. -/
def qPop (q : HQue) : HM (α × HQue) := do
  let cells ← qCells q
  match cells[q.head]? with
  | some (some v) => do
    store q.start (Cell.wrap (cells.set q.head none))
    return (v, { q with head := q.head + 1 })
  | _ => fun _ => .error .ub

end

/-! ### Copies of arguments -/

/-- api.c:786-791 and the like: check and copy a C string. The first result says that the program goes on; otherwise it goes to its
error exit, and the copy is `NULL`. -/
def copyString (buf : List UInt8) : HM (Bool × Ptr) := do
  let n ← strlen buf
  let b ← bytesOf buf n
  if !checkUtf8 b then return (false, none)
  else do
    let p ← malloc (.bytes (b ++ [0]))                                  -- `strdup`
    return (p.isSome, p)

/-- The same for an argument that may be `NULL`. -/
def copyOptional : Option (List UInt8) → HM (Bool × Ptr)
  | none => return (true, none)
  | some buf => copyString buf

/-- api.c:842-851, 1217-1226: check and copy the text of a scalar; a negative length stands for `strlen`. The `int` result of
`strlen` is not truncated in the model. -/
def copyValue (buf : List UInt8) (length : Int) : HM (Bool × Ptr × Nat) := do
  let n ← (if length < 0 then strlen buf else pure length.toNat)
  let b ← bytesOf buf n
  if !checkUtf8 b then return (false, none, n)
  else do
    let p ← malloc (.bytes (b ++ [0]))
    return (p.isSome, p, n)

/-- A version directive argument (api.c:732-737, 1067-1072). -/
def copyVersion : Option Version → HM (Bool × Ptr)
  | none => return (true, none)
  | some v => do
    let p ← malloc (.version v)
    return (p.isSome, p)

/-- api.c:743-762, 1078-1097: copy the tag directives; the results are the status, the stack, and `value`. -/
def copyDirs : List (List UInt8 × List UInt8) → HStk → HM (Bool × HStk × Ptr × Ptr)
  | [], s => return (true, s, none, none)
  | (handle, pfx) :: ds, s => do
    let hb ← bytesOf handle (← strlen handle)
    if !checkUtf8 hb then return (false, s, none, none)
    else do
      let pb ← bytesOf pfx (← strlen pfx)
      if !checkUtf8 pb then return (false, s, none, none)
      else do
        let p ← malloc (.bytes (hb ++ [0]))
        let q ← malloc (.bytes (pb ++ [0]))
        if p.isNone || q.isNone then return (false, s, p, q)
        else do
          let (ok, s) ← hPush (p, q) s
          if !ok then return (false, s, p, q) else copyDirs ds s

/-- `STACK_INIT` and the loop, if there are directives (api.c:739-763, 1074-1098). -/
def copyTags (ds : List (List UInt8 × List UInt8)) : HM (Bool × HStk × Ptr × Ptr) := do
  if ds.isEmpty then return (true, {}, none, none)
  else do
    let (ok, s) ← hInit (Ptr × Ptr)
    if !ok then return (false, s, none, none) else copyDirs ds s

/-- Free the strings of the first `n` directives, the last one first (api.c:774-778, 1109-1113). -/
def freeDirs : Nat → HStk → HM Unit
  | 0, _ => return ()
  | n + 1, s => do
    let v : Ptr × Ptr ← hGet n s
    free v.1
    free v.2
    freeDirs n s

/-- Free the strings of the directives from `i` on, the first one first (api.c:993-998, 1149-1154); `n` of them. -/
def freeDirsFrom : Nat → Nat → HStk → HM Unit
  | 0, _, _ => return ()
  | n + 1, i, s => do
    let v : Ptr × Ptr ← hGet i s
    free v.1
    free v.2
    freeDirsFrom n (i + 1) s

end LibYaml
