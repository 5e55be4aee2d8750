import Verif.Model.Heap

/-!
# Event constructors and `yaml_event_delete` (`src/api.c:664-1029`)

The result `none` of a constructor is the return value 0: the event object is not written. All marks are zero.
-/

namespace LibYaml

/-- The calls with their arguments. Strings are the bytes of the caller's buffers. -/
inductive EvCall
  | streamStart (enc : Option Spec.Enc)
  | streamEnd
  | documentStart (version : Option Version) (tags : List (List UInt8 × List UInt8)) (implicit : Bool)
  | documentEnd (implicit : Bool)
  | alias (anchor : List UInt8)
  | scalar (anchor tag : Option (List UInt8)) (value : List UInt8) (length : Int) (plainImplicit quotedImplicit : Bool) (style : ScalarStyle)
  | sequenceStart (anchor tag : Option (List UInt8)) (implicit : Bool) (style : CollStyle)
  | sequenceEnd
  | mappingStart (anchor tag : Option (List UInt8)) (implicit : Bool) (style : CollStyle)
  | mappingEnd

/-- api.c:705-785 `yaml_document_start_event_initialize` -/
def documentStartInit (version : Option Version) (tags : List (List UInt8 × List UInt8)) (implicit : Bool) : HM (Option HEvent) := do
  let (ok, v) ← copyVersion version
  if !ok then do
    free v
    return none
  else do
    let (ok, s, p, q) ← copyTags tags
    if ok then return some (.documentStart v s implicit)
    else do
      free v
      freeDirs s.top s
      free s.start                                                       -- `STACK_DEL`
      free p
      free q
      return none

/-- api.c:807-826 `yaml_alias_event_initialize` -/
def aliasInit (anchor : List UInt8) : HM (Option HEvent) := do
  let (ok, a) ← copyString anchor
  if !ok then return none else return some (.alias a)

/-- api.c:832-880 `yaml_scalar_event_initialize` -/
def scalarInit (anchor tag : Option (List UInt8)) (value : List UInt8) (length : Int) (plainImplicit quotedImplicit : Bool)
    (style : ScalarStyle) : HM (Option HEvent) := do
  let (ok, a) ← copyOptional anchor
  if !ok then do free a; return none
  else do
    let (ok, t) ← copyOptional tag
    if !ok then do free a; free t; return none
    else do
      let (ok, v, n) ← copyValue value length
      if !ok then do free a; free t; free v; return none
      else return some (.scalar a t v n plainImplicit quotedImplicit style)

/-- api.c:886-921, 941-976 `yaml_sequence_start_event_initialize`, `yaml_mapping_start_event_initialize` -/
def collInit (make : Ptr → Ptr → HEvent) (anchor tag : Option (List UInt8)) : HM (Option HEvent) := do
  let (ok, a) ← copyOptional anchor
  if !ok then do free a; return none
  else do
    let (ok, t) ← copyOptional tag
    if !ok then do free a; free t; return none
    else return some (make a t)

/-- The constructors. -/
def EvCall.run : EvCall → HM (Option HEvent)
  | .streamStart e => return some (.streamStart e)                       -- 668-681
  | .streamEnd => return some .streamEnd                                 -- 687-698
  | .documentStart v ts i => documentStartInit v ts i
  | .documentEnd i => return some (.documentEnd i)                       -- 791-801
  | .alias a => aliasInit a
  | .scalar a t v n p q s => scalarInit a t v n p q s
  | .sequenceStart a t i s => collInit (fun a t => .sequenceStart a t i s) a t
  | .sequenceEnd => return some .sequenceEnd                             -- 927-936
  | .mappingStart a t i s => collInit (fun a t => .mappingStart a t i s) a t
  | .mappingEnd => return some .mappingEnd                               -- 969-978

/-- api.c:984-1029 `yaml_event_delete` -/
def eventDelete : HEvent → HM Unit
  | .documentStart v s _ => do
    free v
    freeDirsFrom s.top 0 s
    free s.start
  | .alias a => free a
  | .scalar a t v _ _ _ _ => do free a; free t; free v
  | .sequenceStart a t _ _ => do free a; free t
  | .mappingStart a t _ _ => do free a; free t
  | _ => return ()

end LibYaml
