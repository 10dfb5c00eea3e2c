/-!
# Shared modelling vocabulary

Python exceptions are modelled as values of `PyErr`; a function that may raise returns
`Except PyErr α`.
-/

namespace Rosemary

/-- The Python exception classes that the modelled code can raise. -/
inductive PyErr where
  | valueError
  | indexError
  | keyError
  | typeError
  | zeroDivisionError
  | attributeError
  | unboundLocalError
  | nameError
  | runtimeError
  | stopIteration
  deriving DecidableEq, Repr

instance {ε α : Type} [DecidableEq ε] [DecidableEq α] : DecidableEq (Except ε α)
  | .ok a, .ok b => if h : a = b then isTrue (by rw [h]) else isFalse (by intro e; cases e; exact h rfl)
  | .error a, .error b => if h : a = b then isTrue (by rw [h]) else isFalse (by intro e; cases e; exact h rfl)
  | .ok _, .error _ => isFalse (by intro e; cases e)
  | .error _, .ok _ => isFalse (by intro e; cases e)

end Rosemary
