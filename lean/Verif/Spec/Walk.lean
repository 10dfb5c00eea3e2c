import Mathlib.Order.Basic
import Mathlib.Data.Nat.Find

/-!
# Walks in a relation

`Steps E n u v`: there is a walk with `n` steps along `E` from `u` to `v`.
-/

namespace Rosemary.Spec

variable {V : Type}

/-- There is a walk with `n` steps from `u` to `v`. -/
inductive Steps (E : V → V → Prop) : ℕ → V → V → Prop
  | zero (u : V) : Steps E 0 u u
  | succ {n : ℕ} {u v w : V} : Steps E n u v → E v w → Steps E (n + 1) u w

/-- The least number of steps from `u` to `v` is `n`. -/
def IsDist (E : V → V → Prop) (u v : V) (n : ℕ) : Prop := Steps E n u v ∧ ∀ m, Steps E m u v → n ≤ m

/-- `v` can be reached from `u`. -/
def Reach (E : V → V → Prop) (u v : V) : Prop := ∃ n, Steps E n u v

theorem IsDist.unique {E : V → V → Prop} {u v : V} {n m : ℕ} (h : IsDist E u v n) (h' : IsDist E u v m) : n = m :=
  le_antisymm (h.2 _ h'.1) (h'.2 _ h.1)

theorem Reach.isDist {E : V → V → Prop} {u v : V} (h : Reach E u v) : ∃ n, IsDist E u v n := by
  classical
  exact ⟨Nat.find h, Nat.find_spec h, fun m hm => Nat.find_min' h hm⟩

theorem isDist_zero (E : V → V → Prop) (u : V) : IsDist E u u 0 := ⟨Steps.zero u, fun _ _ => Nat.zero_le _⟩

theorem isDist_zero_iff {E : V → V → Prop} {u v : V} : IsDist E u v 0 ↔ v = u := by
  constructor
  · rintro ⟨h, -⟩; cases h; rfl
  · rintro rfl; exact isDist_zero E v

theorem IsDist.pred {E : V → V → Prop} {u v : V} {n : ℕ} (h : IsDist E u v (n + 1)) : ∃ w, IsDist E u w n ∧ E w v := by
  obtain ⟨h1, h2⟩ := h
  cases h1 with
  | succ hw he => exact ⟨_, ⟨hw, fun m hm => by have := h2 _ (Steps.succ hm he); omega⟩, he⟩

theorem Steps.trans {E : V → V → Prop} {u v w : V} {n m : ℕ} (h : Steps E n u v) (h' : Steps E m v w) :
    Steps E (n + m) u w := by
  induction h' with
  | zero => exact h
  | succ _ he ih => exact Steps.succ (ih h) he

theorem Steps.symm {E : V → V → Prop} (hE : ∀ u v, E u v → E v u) {u v : V} {n : ℕ} (h : Steps E n u v) :
    Steps E n v u := by
  induction h with
  | zero u => exact Steps.zero u
  | succ _ he ih =>
    have := Steps.trans (Steps.succ (Steps.zero _) (hE _ _ he)) ih
    rwa [Nat.zero_add, Nat.add_comm] at this

theorem Reach.refl (E : V → V → Prop) (u : V) : Reach E u u := ⟨0, Steps.zero u⟩

theorem Reach.trans {E : V → V → Prop} {u v w : V} (h : Reach E u v) (h' : Reach E v w) : Reach E u w := by
  obtain ⟨n, hn⟩ := h
  obtain ⟨m, hm⟩ := h'
  exact ⟨_, hn.trans hm⟩

theorem Reach.step {E : V → V → Prop} {u v w : V} (h : Reach E u v) (h' : E v w) : Reach E u w := by
  obtain ⟨n, hn⟩ := h
  exact ⟨_, hn.succ h'⟩

theorem Reach.symm {E : V → V → Prop} (hE : ∀ u v, E u v → E v u) {u v : V} (h : Reach E u v) : Reach E v u := by
  obtain ⟨n, hn⟩ := h
  exact ⟨n, hn.symm hE⟩

end Rosemary.Spec
