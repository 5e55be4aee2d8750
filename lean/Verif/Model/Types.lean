import Verif.Model.Basic
import Verif.Spec.Unicode

/-!
# Tokens, events, nodes (`include/yaml.h:89-870`)

Above the reader and below the writer, text is a list of code points instead of a NUL-terminated array of UTF-8 bytes
(`Props/Chars.lean` relates the two). A `NULL` string is `none`. `length` fields are implied.
-/

namespace LibYaml

/-- A `yaml_char_t *` string. -/
abbrev Text := List Nat

/-- Text of a C string literal. -/
def lit (s : List Char) : Text := s.map Char.toNat

/-- yaml.h:89-94 `yaml_version_directive_t` -/
structure Version where
  major : Nat
  minor : Nat
  deriving DecidableEq, Repr

/-- yaml.h:97-102 `yaml_tag_directive_t` -/
structure TagDir where
  handle : Text
  pfx : Text
  deriving DecidableEq, Repr

/-- yaml.h:165-179 -/
inductive ScalarStyle | any | plain | single | double | literal | folded
  deriving DecidableEq, Repr

/-- yaml.h:182-202 `yaml_sequence_style_t`, `yaml_mapping_style_t` -/
inductive CollStyle | any | block | flow
  deriving DecidableEq, Repr

/-- yaml.h:213-316 `yaml_token_type_t` and the data of `yaml_token_t`. -/
inductive TokData
  | streamStart (enc : Spec.Enc)
  | streamEnd
  | versionDirective (v : Version)
  | tagDirective (d : TagDir)
  | documentStart
  | documentEnd
  | blockSequenceStart
  | blockMappingStart
  | blockEnd
  | flowSequenceStart
  | flowSequenceEnd
  | flowMappingStart
  | flowMappingEnd
  | blockEntry
  | flowEntry
  | key
  | value
  | alias (anchor : Text)
  | anchor (anchor : Text)
  | tag (handle suffix : Text)
  | scalar (value : Text) (style : ScalarStyle)
  deriving DecidableEq, Repr

/-- yaml.h:259-323 `yaml_token_t`. `YAML_NO_TOKEN` does not occur inside the queue; it is `none` where it is returned. -/
structure Token where
  data : TokData
  start : Mark := {}
  stop : Mark := {}
  deriving DecidableEq, Repr

/-- yaml.h:341-375 `yaml_event_type_t` and the data of `yaml_event_t`. -/
inductive EvData
  | streamStart (enc : Option Spec.Enc)
  | streamEnd
  | documentStart (version : Option Version) (tags : List TagDir) (implicit : Bool)
  | documentEnd (implicit : Bool)
  | alias (anchor : Text)
  | scalar (anchor tag : Option Text) (value : Text) (plainImplicit quotedImplicit : Bool) (style : ScalarStyle)
  | sequenceStart (anchor tag : Option Text) (implicit : Bool) (style : CollStyle)
  | sequenceEnd
  | mappingStart (anchor tag : Option Text) (implicit : Bool) (style : CollStyle)
  | mappingEnd
  deriving DecidableEq, Repr

/-- yaml.h:378-480 `yaml_event_t`. `YAML_NO_EVENT` is `none` where it is returned. -/
structure Event where
  data : EvData
  start : Mark := {}
  stop : Mark := {}
  deriving DecidableEq, Repr

/-- yaml.h:719-777 `yaml_node_t`; node ids are 1-based. -/
inductive NodeData
  | scalar (value : Text) (style : ScalarStyle)
  | sequence (items : List Nat) (style : CollStyle)
  | mapping (pairs : List (Nat × Nat)) (style : CollStyle)
  deriving DecidableEq, Repr

structure Node where
  tag : Text
  data : NodeData
  start : Mark := {}
  stop : Mark := {}
  deriving DecidableEq, Repr

/-- yaml.h:780-818 `yaml_document_t` -/
structure Doc where
  nodes : List Node := []
  version : Option Version := none
  tags : List TagDir := []
  startImplicit : Bool := true
  endImplicit : Bool := true
  start : Mark := {}
  stop : Mark := {}
  deriving DecidableEq, Repr

/-- yaml.h:681-685 `YAML_DEFAULT_SCALAR_TAG` etc. -/
def strTag : Text := lit ['t','a','g',':','y','a','m','l','.','o','r','g',',','2','0','0','2',':','s','t','r']
def seqTag : Text := lit ['t','a','g',':','y','a','m','l','.','o','r','g',',','2','0','0','2',':','s','e','q']
def mapTag : Text := lit ['t','a','g',':','y','a','m','l','.','o','r','g',',','2','0','0','2',':','m','a','p']

end LibYaml
