import Verif.Model.Reader

/-!
# Programs over the parser's character buffer

The scanner touches its input only through `CACHE` (scanner.c:486-489), the character tests on
`parser->buffer.pointer[i]` (yaml_private.h:174-373) and `SKIP`/`READ` (scanner.c:495-524). `Prog` is the free monad over
these three operations. A program is interpreted over the reader model (`Prog.runR`) and over a plain list of
characters (`Prog.run`).
-/

namespace LibYaml

/-- A computation that inspects the input. -/
inductive Prog (α : Type) where
  | ret (a : α)
  | fail (e : Fail)
  | cache (n : Nat) (k : Prog α)
  | look (i : Nat) (k : Nat → Prog α)
  | skip (k : Prog α)

namespace Prog

def bind {α β : Type} : Prog α → (α → Prog β) → Prog β
  | ret a, f => f a
  | fail e, _ => fail e
  | cache n k, f => cache n (bind k f)
  | look i k, f => look i fun c => bind (k c) f
  | skip k, f => skip (bind k f)

instance : Monad Prog where
  pure := ret
  bind := bind

end Prog

/-- The largest look-ahead a program may request. The scanner's largest request is 8 (`CACHE(parser, code_length)`);
the bound used here is the largest one for which refilling provably never overflows the working buffer. -/
def maxLookahead : Nat := 6144

/-- Abstract input: the characters still to come, including the NUL the reader adds at the end; how many of them
have been requested; and the reader error that follows them instead of the end, if any. -/
structure In where
  cs : List Nat
  avail : Nat := 0
  bad : Option Fail := none

/-- Abstract `CACHE`. -/
def In.cache (n : Nat) (i : In) : Except Fail In :=
  if maxLookahead < n then .error .ub
  else if n ≤ i.avail then .ok i
  else if n ≤ i.cs.length then .ok { i with avail := n }
  else
    match i.bad with
    | some e => .error e
    | none => .ok { i with avail := i.cs.length }

/-- The character at offset `j` from the current position. The C macros index bytes, so this is only meaningful if the
characters before it are single bytes; otherwise, and if the character was not requested, the result is undefined. -/
def In.look (j : Nat) (i : In) : Except Fail Nat :=
  if j < i.avail ∧ (i.cs.take j).all (· < 0x80) then
    match i.cs[j]? with
    | some c => .ok c
    | none => .error .ub
  else .error .ub

/-- Abstract `SKIP`. -/
def In.skip (i : In) : Except Fail In :=
  match i.cs with
  | [] => .error .ub
  | _ :: cs => if i.avail = 0 then .error .ub else .ok { i with cs := cs, avail := i.avail - 1 }

/-- Interpretation over a list of characters. -/
def Prog.run {α : Type} : Prog α → In → Except Fail (α × In)
  | .ret a, i => .ok (a, i)
  | .fail e, _ => .error e
  | .cache n k, i =>
    match i.cache n with
    | .error e => .error e
    | .ok i => k.run i
  | .look j k, i =>
    match i.look j with
    | .error e => .error e
    | .ok c => (k c).run i
  | .skip k, i =>
    match i.skip with
    | .error e => .error e
    | .ok i => k.run i

/-- The character whose encoding begins at `pointer[j]`; undefined if it was not buffered.
Simplification: the C macros compare single bytes; that this agrees with comparing the decoded character is
`Verif/Props/Chars.lean`. -/
def lookR (st : RS) (j : Nat) : Except Fail Nat :=
  if j < st.unread then
    match stepUtf8 true 0 (st.buf.drop j) with
    | .char v _ => .ok v
    | _ => .error .ub
  else .error .ub

/-- Interpretation over the reader model. -/
def Prog.runR {α : Type} (o : Oracle) : Prog α → RS → Except Fail (α × RS)
  | .ret a, st => .ok (a, st)
  | .fail e, _ => .error e
  | .cache n k, st =>
    match cacheR o st n with
    | .error e => .error e
    | .ok st => k.runR o st
  | .look j k, st =>
    match lookR st j with
    | .error e => .error e
    | .ok c => (k c).runR o st
  | .skip k, st =>
    match skipR st with
    | .error e => .error e
    | .ok st => k.runR o st

/-- The simplest client: read all characters one by one up to the NUL end marker. -/
def drain : Nat → Prog (List Nat)
  | 0 => .fail .fuel
  | n + 1 => .cache 1 <| .look 0 fun c =>
      if c = 0 then .ret [] else .skip <| (drain n).bind fun cs => .ret (c :: cs)

/-- Read a whole input through a handler behaving as `o`, with the given encoding setting. -/
def readAll (o : Oracle) (enc : Option Spec.Enc) (bytes : List UInt8) : Except Fail (List Nat) :=
  match (drain (bytes.length + 1)).runR o (RS.init bytes enc) with
  | .ok (cs, _) => .ok cs
  | .error e => .error e

end LibYaml
