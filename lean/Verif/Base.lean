/-!
# Outcomes shared by all models

`Err` distinguishes the C++ exceptions a user can observe from situations that are
undefined behaviour or that end the process.  Paths in citations are relative to
`/repo/components/core/wf` unless stated otherwise.
-/

namespace Wf

/-- How an operation can fail.  The first group are the exception classes of
`utility/error_types.h` (`arithmetic_error`, `domain_error`, `type_error`,
`dimension_error`, `invalid_argument_error`, `assertion_error`).
`ub` is C++ undefined behaviour, `terminate` is an exception leaving a `noexcept`
function (`std::terminate`). -/
inductive Err where
  | arithmetic
  | domain
  | type
  | dimension
  | invalidArgument
  | assertion
  | ub
  | terminate
deriving DecidableEq, Repr

/-- Result of a C++ function that may fail. -/
abbrev Res (α : Type) := Except Err α

/-- An exception escaping a `noexcept` function ends the process.  Undefined behaviour
stays undefined behaviour. -/
def noexcept {α : Type} : Res α → Res α
  | .ok a => .ok a
  | .error .ub => .error .ub
  | .error _ => .error .terminate

end Wf
