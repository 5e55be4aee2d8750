import Verif.Spec.Layout
import Verif.Spec.TokenGrammar

/-!
The language that the parser reads: texts and their events.
-/

namespace LibYaml.Spec

/-- The text can be divided into lexemes up to its end, and the tokens that the layout rules give for them form, by the grammar, the
events `evs`. The zero is the character that scanner.c sees after the end of the input (reader.c 453-460). -/
def Meaning (en : Enc) (text : List Nat) (evs : List EvData) : Prop :=
  ∃ ls u lv key, Lexed (text ++ [0]) ls u lv key ∧ (∃ l, ls.getLast? = some l ∧ l.data = .streamEnd) ∧
    Stream .implemented (.streamStart en :: (layout [] ls).map Token.data) evs

/-- After any of the lexemes of the text, fewer than `n` block and flow collections are open. -/
def ShallowText (text : List Nat) (n : Int) : Prop :=
  ∀ ls u lv key, Lexed (text ++ [0]) ls u lv key → (((openBlocks [] ls).length + lv : Nat) : Int) < n

end LibYaml.Spec
