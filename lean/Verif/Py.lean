/-!
# Python level primitives

Exceptions are values.  Every model function that can raise returns `Res α`.
-/

/-- The Python exception classes the modelled code can raise (builtins; `LinAlgError` is
`numpy.linalg.LinAlgError`). The message text is not modelled. -/
inductive PyErr where
  | valueError
  | typeError
  | runtimeError
  | keyError
  | attributeError
  | indexError
  | notImplementedError
  | linAlgError
  | zeroDivisionError
  | assertionError
  /-- Not an exception: the call returns, but the object it returns contains NaN. Its further use is not modelled. -/
  | returnsNaN
  deriving DecidableEq, Repr

/-- Result of a Python call: a value or a raised exception. -/
abbrev Res (α : Type _) := Except PyErr α

namespace Res

/-- "The call raises": the result is an exception. -/
def Raises {α : Type _} (r : Res α) (e : PyErr) : Prop := r = .error e

/-- "The call returns normally". -/
def Ok {α : Type _} (r : Res α) : Prop := ∃ a, r = .ok a

end Res
