/-!
# Python outcomes

Python exceptions are values: a call that may raise is a function into `Py α`.
The classes listed are those raised (or leaked) by the modelled parts of `/repo/sdepy`.
-/

namespace Sdepy

/-- The classes of python exceptions that the modelled code raises or lets through.
`noFuel` is an artefact of the model, not a python exception: it marks a `while` loop
that has not terminated within the number of iterations it was given. -/
inductive PyErr where
  | valueError
  | typeError
  | indexError
  | keyError
  | runtimeError
  | stopIteration
  | assertionError
  | attributeError
  | syntaxError
  | notImplementedError
  | noFuel
  deriving DecidableEq, Repr

/-- Outcome of a python call: an exception or a value. -/
abbrev Py (α : Type _) := Except PyErr α

/-- `assert b` -/
def pyAssert (b : Bool) : Py Unit :=
  if b then .ok () else .error .assertionError

end Sdepy
