import Verif.Model.Py

/-!
# Python generators

A generator whose body is a loop `while True: yield out(s); s = step(s)` is modelled by its step
function; `run` collects what it yields.
-/

namespace Rosemary.Gen

/-- What happens between two `yield`s: the generator goes on with a new state, returns, or raises. -/
inductive Step (σ : Type) where
  | next (s : σ)
  | stop
  | raise (e : PyErr)
  deriving DecidableEq

/-- The values yielded from state `s` on, and the exception that ends the iteration, if any; `none` when
the generator never stops. -/
def run {σ β : Type} (step : σ → Step σ) (out : σ → β) (s : σ) : Option (List β × Option PyErr) :=
  match step s with
  | .stop => some ([out s], none)
  | .raise e => some ([out s], some e)
  | .next s' => do
    let r ← run step out s'
    some (out s :: r.1, r.2)
partial_fixpoint

/-- At most `fuel` values, for examples. -/
def runN {σ β : Type} (step : σ → Step σ) (out : σ → β) : Nat → σ → Option (List β × Option PyErr)
  | 0, _ => none
  | fuel + 1, s =>
    match step s with
    | .stop => some ([out s], none)
    | .raise e => some ([out s], some e)
    | .next s' =>
      match runN step out fuel s' with
      | none => none
      | some r => some (out s :: r.1, r.2)

theorem run_of_runN {σ β : Type} {step : σ → Step σ} {out : σ → β} (fuel : Nat) {s : σ}
    {r : List β × Option PyErr} (h : runN step out fuel s = some r) : run step out s = some r := by
  induction fuel generalizing s r with
  | zero => simp [runN] at h
  | succ fuel ih =>
    rw [runN] at h
    rw [run.eq_def]
    cases hs : step s with
    | stop => rw [hs] at h; exact h
    | raise e => rw [hs] at h; exact h
    | next s' =>
      rw [hs] at h
      dsimp only at h ⊢
      cases hr : runN step out fuel s' with
      | none => rw [hr] at h; simp at h
      | some r' =>
        rw [hr] at h
        rw [ih hr]
        exact h

end Rosemary.Gen
