/-!
# Common definitions: Python exceptions as values

Every function of the modelled code that can raise returns `Except Err _`; the error branches are
part of the model.  `Err` names the Python exception classes that occur in the modelled code.
-/

namespace Verif

/-- The exception classes raised by the modelled code.  `outOfFuel` is no Python exception: it
marks a `while` loop whose iteration bound in the model was exhausted; for each such loop there is
a theorem saying that it never occurs. -/
inductive Err
  | valueError | typeError | indexError | keyError | attributeError | zeroDivision
  | unsatisfiable | notImplemented | runtimeError | assertionError | outOfFuel
deriving DecidableEq, Repr

end Verif
