import Verif.Spec.Events

/-!
# Specification: the data an event must carry to be emitted

Independent of the order of events. Anchors are words, tags in use are not empty, a scalar without a tag is implicit in
some style, and the directives of a document are well formed and do not repeat a handle.
-/

namespace LibYaml.Spec

open LibYaml (EvData Text Version TagDir)

/-- ASCII letters, digits, `_` and `-`. -/
def Word (c : Nat) : Prop :=
  (0x30 ≤ c ∧ c ≤ 0x39) ∨ (0x41 ≤ c ∧ c ≤ 0x5A) ∨ (0x61 ≤ c ∧ c ≤ 0x7A) ∨ c = 0x5F ∨ c = 0x2D

/-- A name of an anchor. -/
def Name (a : Text) : Prop := a ≠ [] ∧ ∀ c ∈ a, Word c

/-- A tag handle: `!`, or a word (possibly empty) between two `!`. -/
def Handle (h : Text) : Prop := h = [0x21] ∨ ∃ w, h = 0x21 :: (w ++ [0x21]) ∧ ∀ c ∈ w, Word c

/-- Directives of a document. -/
def GoodVersion (v : Version) : Prop := v.major = 1 ∧ (v.minor = 1 ∨ v.minor = 2)

def GoodTags (ts : List TagDir) : Prop :=
  (∀ d ∈ ts, Handle d.handle ∧ d.pfx ≠ []) ∧ (ts.map TagDir.handle).Nodup

/-- The data of the event can be emitted; `canonical` is the setting of the emitter. -/
def GoodEvent (canonical : Bool) : EvData → Prop
  | .documentStart v ts _ => (∀ x, v = some x → GoodVersion x) ∧ GoodTags ts
  | .alias a => Name a
  | .scalar a t _ p q _ =>
    (∀ x, a = some x → Name x) ∧ (canonical = true ∨ (p = false ∧ q = false) → t ≠ some [])
      ∧ (t = none → p = true ∨ q = true)
  | .sequenceStart a t i _ => (∀ x, a = some x → Name x) ∧ (canonical = true ∨ i = false → t ≠ some [])
  | .mappingStart a t i _ => (∀ x, a = some x → Name x) ∧ (canonical = true ∨ i = false → t ≠ some [])
  | _ => True

end LibYaml.Spec
