import Batteries.Lean.Except

/-!
# Python-level vocabulary shared by all the models

Exceptions raised by the modelled code are values of `PyErr`; a modelled call
returns `Except PyErr α`.
-/

namespace Verif

/-- The Python exception classes raised by the modelled code (messages are not
modelled). -/
inductive PyErr
  | valueError
  | runtimeError
  | keyError
  | typeError
  | attributeError
  | indexError
  | unboundLocalError
  | notImplementedError
  deriving DecidableEq, Repr

end Verif
