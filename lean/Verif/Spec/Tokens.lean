import Verif.Model.Types
import Verif.Spec.Marks

/-!
# What a token stream must look like

Independent of the scanner: predicates on lists of tokens.
-/

namespace LibYaml.Spec

/-- Tokens that open a block collection. -/
def opensBlock (t : Token) : Bool := t.data == .blockSequenceStart || t.data == .blockMappingStart

/-- Tokens that close one. -/
def closesBlock (t : Token) : Bool := t.data == .blockEnd

/-- Number of open block collections after `ts`, starting with `n` of them; `none` if one is closed that is not open. -/
def blockLevel : Nat → List Token → Option Nat
  | n, [] => some n
  | n, t :: ts =>
    if opensBlock t then blockLevel (n + 1) ts
    else if closesBlock t then
      match n with
      | 0 => none
      | n + 1 => blockLevel n ts
    else blockLevel n ts

/-- Number of flow collections open after `ts`, ignoring closing brackets without a partner. -/
def flowStep (n : Nat) (t : Token) : Nat :=
  match t.data with
  | .flowSequenceStart | .flowMappingStart => n + 1
  | .flowSequenceEnd | .flowMappingEnd => n - 1
  | _ => n

def flowDepth (ts : List Token) : Nat := ts.foldl flowStep 0

/-- A KEY token that stands for no character of its own: the key is implicit. -/
def implicitKey (t : Token) : Prop := t.data = .key ∧ t.stop = t.start

/-- The VALUE token `v` may belong to the implicit key `t`: same line, at most 1024 characters further. -/
def serves (v t : Token) : Prop :=
  v.data = .value ∧ v.start.line = t.start.line ∧ t.start.index ≤ v.start.index ∧ v.start.index ≤ t.start.index + 1024

/-- Every implicit key is followed by a VALUE on the same line within 1024 characters. -/
def KeysServed : List Token → Prop
  | [] => True
  | t :: ts => (implicitKey t → ∃ v ∈ ts, serves v t) ∧ KeysServed ts

/-- STREAM-START and STREAM-END. -/
def isStreamTok (t : Token) : Bool :=
  match t.data with
  | .streamStart _ | .streamEnd => true
  | _ => false

/-- A beginning of a token stream: STREAM-START, then tokens that are neither STREAM-START nor STREAM-END. -/
def Opened (ts : List Token) : Prop :=
  ∃ t rest en, ts = t :: rest ∧ t.data = .streamStart en ∧ ∀ x ∈ rest, isStreamTok x = false

/-- A complete token stream. -/
def Complete (ts : List Token) : Prop := ∃ body t, ts = body ++ [t] ∧ Opened body ∧ t.data = .streamEnd

/-- Tokens follow one another: none starts before the ones before it have ended. -/
def InOrder (ts : List Token) : Prop := ts.Pairwise fun a b => a.stop.index ≤ b.start.index

/-- A position between two characters of the text `T`, not inside a CR LF. -/
def IsPos (T : List Nat) (x : Mark) : Prop := ∃ u v, T = u ++ v ∧ x = markOf u ∧ NoCut u v

/-- Columns of the open block collections, the innermost first: strictly decreasing, down to -1. -/
def NestedColumns : List Int → Prop
  | [] => False
  | [a] => a = -1
  | a :: b :: r => b < a ∧ NestedColumns (b :: r)

end LibYaml.Spec
