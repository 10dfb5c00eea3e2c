import Mathlib.Data.Set.Basic

/-!
# Taking sets away one after the other
-/

namespace Rosemary.Spec

variable {V : Type}

/-- `R` is left when the lists `cs` are taken away from `S` in this order, where each is allowed by `rule` for the
vertices that are left before. -/
inductive Peels (rule : Set V → List V → Prop) : Set V → List (List V) → Set V → Prop
  | done (S : Set V) : Peels rule S [] S
  | step (S : Set V) (c : List V) (cs : List (List V)) (R : Set V) :
    rule S c → Peels rule (S \ {v | v ∈ c}) cs R → Peels rule S (c :: cs) R

end Rosemary.Spec
