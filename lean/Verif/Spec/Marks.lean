import Verif.Model.Basic

/-!
# Positions in a text

Independent of the scanner: the position after a text `u` is its length, the number of its line breaks (CR LF counting
once) and the number of characters after the last line break.
-/

namespace LibYaml.Spec

/-- The line breaks of YAML 1.1: LF, CR, NEL, LS, PS. -/
def isBreakChar (c : Nat) : Bool := [0xA, 0xD, 0x85, 0x2028, 0x2029].contains c

/-- Number of line breaks. -/
def lineBreaks : List Nat → Nat
  | [] => 0
  | 0xD :: 0xA :: r => lineBreaks r + 1
  | c :: r => lineBreaks r + if isBreakChar c then 1 else 0

/-- Number of characters after the last line break. -/
def lastColumn (u : List Nat) : Nat := (u.reverse.takeWhile fun c => !isBreakChar c).length

/-- The position after `u`. -/
def markOf (u : List Nat) : Mark := { index := u.length, line := lineBreaks u, column := lastColumn u }

/-- Between `u` and `v` there is no CR LF. -/
def NoCut (u v : List Nat) : Prop := ¬ (u.getLast? = some 0xD ∧ v.head? = some 0xA)

example : markOf [97, 0xD, 0xA, 98, 0xA, 99, 100] = { index := 7, line := 2, column := 2 } := by decide

end LibYaml.Spec
