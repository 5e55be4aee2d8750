import Verif.Model.Handlers

/-!
# What is asked of read handlers and of files
-/

namespace LibYaml.Spec

/-- What yaml.h:970-989 asks of a read handler, for handlers over a fixed content: `good r c` says that with the data `r` the bytes
`c` are still to come. A call stores at most `size` bytes, and these come next; none only at the end. It may fail. -/
def Serves {ρ : Type} (H : ReadHandler ρ) (good : ρ → List UInt8 → Prop) : Prop :=
  ∀ r c size, good r c → ∃ a r', H r size = .ok (a, r') ∧
    ∀ l, a = some l → l.length ≤ size ∧ (l = [] → size = 0 ∨ c = []) ∧ ∃ c', c = l ++ c' ∧ good r' c'

/-- The handler does not fail. -/
def NeverFails {ρ : Type} (H : ReadHandler ρ) : Prop := ∀ r size r', H r size ≠ .ok (none, r')

/-- Reading from a file (C11 7.21.8.1): `fread` stores at most `size` bytes, and these come next; fewer only at the end or after
an error, which sets the indicator. -/
def FileReads {φ : Type} (F : Files φ) (good : φ → List UInt8 → Prop) : Prop :=
  ∀ f c size, good f c → ∃ c', c = (F.fread f size).1 ++ c' ∧ (F.fread f size).1.length ≤ size ∧
    ((F.fread f size).1.length < size → F.ferror (F.fread f size).2 = true ∨ c' = []) ∧ good (F.fread f size).2 c'

/-- Writing to a file (C11 7.21.8.2): the first bytes of the buffer are appended, and their number is returned. -/
def FileWrites {φ : Type} (F : Files φ) (content : φ → List UInt8) : Prop :=
  ∀ f b, (F.fwrite f b).1 ≤ b.length ∧ content (F.fwrite f b).2 = content f ++ b.take (F.fwrite f b).1

end LibYaml.Spec
