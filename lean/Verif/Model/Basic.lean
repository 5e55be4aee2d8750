/-!
# Results shared by all parts of the model
-/

namespace LibYaml

/-- yaml.h:147-156 `yaml_mark_t`. Unbounded naturals instead of `size_t`. -/
structure Mark where
  index : Nat := 0
  line : Nat := 0
  column : Nat := 0
  deriving DecidableEq, Repr

/-- Outcomes of a modelled C function other than success.
* `ub` = undefined behaviour, a failed `assert`, or a read of a buffer beyond the requested look-ahead;
* `fuel` = a modelled loop ran out of fuel (shown unreachable by the termination theorems);
* `reader` = `YAML_READER_ERROR` (`yaml_parser_set_reader_error`, reader.c:25-38) with problem text, offset and
  value (`-1` = none);
* `scanner` = `YAML_SCANNER_ERROR` (`yaml_parser_set_scanner_error`, scanner.c:776-790);
* `parser` = `YAML_PARSER_ERROR` (parser.c:206-236);
* `composer` = `YAML_COMPOSER_ERROR` (loader.c:115-145);
* `memory` = `YAML_MEMORY_ERROR`.
`context = none` is a `NULL` context. -/
inductive Fail
  | ub
  | fuel
  | reader (problem : String) (offset : Nat) (value : Int)
  | scanner (context : Option String) (contextMark : Mark) (problem : String) (problemMark : Mark)
  | parser (context : Option String) (contextMark : Mark) (problem : String) (problemMark : Mark)
  | composer (context : Option String) (contextMark : Mark) (problem : String) (problemMark : Mark)
  | memory
  deriving DecidableEq, Repr

/-- The name used in the reader. -/
abbrev RFail := Fail

/-- `ub` and `fuel` are faults of the code (or the model); everything else is an error reported to the caller. -/
def Fail.reported : Fail → Prop
  | .ub => False
  | .fuel => False
  | _ => True

instance (e : Fail) : Decidable e.reported := by cases e <;> (unfold Fail.reported; infer_instance)

end LibYaml
