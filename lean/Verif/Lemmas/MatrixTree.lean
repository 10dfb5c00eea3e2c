import Mathlib.LinearAlgebra.Matrix.Charpoly.Coeff
import Mathlib.LinearAlgebra.Matrix.ToLinearEquiv
import Mathlib.LinearAlgebra.Matrix.Determinant.Basic
import Mathlib.Algebra.Order.Ring.Int
import Verif.Spec.Walk

/-!
# The determinants of the principal submatrices of a Laplacian matrix

For a set `S` of vertices, the determinant of the rows and columns of `S` is the number of the functions that map every
vertex of `S` to a neighbor, such that from every vertex of `S` the iterates leave `S`.
-/

namespace Rosemary.MatrixTree

open BigOperators

variable {V : Type} [Fintype V] [DecidableEq V]

section

variable (S : Finset V)

/-- One step: the vertices outside `S` stay. -/
def step (f : S → V) (v : V) : V := if h : v ∈ S then f ⟨v, h⟩ else v

/-- From every vertex the iterates leave `S`. -/
def Leaves (f : S → V) : Prop := ∀ v, ∃ k, (step S f)^[k] v ∉ S

/-- The matrix of a step. -/
def stepMatrix (f : S → V) : Matrix S S ℤ := fun i j => if f i = j then 1 else 0

variable {S}

theorem step_out (f : S → V) {v : V} (h : v ∉ S) : step S f v = v := by rw [step, dif_neg h]

theorem iterate_out (f : S → V) {v : V} (h : v ∉ S) (k : ℕ) : (step S f)^[k] v = v := by
  induction k with
  | zero => rfl
  | succ k ih => rw [Function.iterate_succ_apply, step_out f h, ih]

theorem iterate_out_add (f : S → V) {v : V} {k : ℕ} (h : (step S f)^[k] v ∉ S) (m : ℕ) : (step S f)^[m + k] v ∉ S := by
  rw [Function.iterate_add_apply, iterate_out f h]; exact h

theorem stepMatrix_pow (f : S → V) (k : ℕ) (i j : S) :
    (stepMatrix S f ^ k) i j = if (step S f)^[k] i = j then 1 else 0 := by
  induction k generalizing i with
  | zero =>
    rw [pow_zero, Matrix.one_apply, Function.iterate_zero, id]
    exact if_congr Subtype.ext_iff rfl rfl
  | succ k ih =>
    rw [pow_succ', Matrix.mul_apply, Function.iterate_succ_apply]
    have hst : step S f i = f i := by rw [step, dif_pos i.2]
    rw [hst]
    by_cases h : f i ∈ S
    · rw [Finset.sum_eq_single ⟨f i, h⟩]
      · rw [ih]; simp [stepMatrix]
      · intro l _ hl
        rw [stepMatrix, if_neg, zero_mul]
        intro e
        exact hl (Subtype.ext e.symm)
      · intro hc; exact absurd (Finset.mem_univ _) hc
    · rw [iterate_out f h, if_neg (fun e : f i = j => h (by rw [e]; exact j.2))]
      refine Finset.sum_eq_zero (fun l _ => ?_)
      rw [stepMatrix, if_neg, zero_mul]
      intro e
      exact h (by rw [e]; exact l.2)

theorem det_one_sub_of_leaves {f : S → V} (h : Leaves S f) : (1 - stepMatrix S f).det = 1 := by
  classical
  have hnil : IsNilpotent (stepMatrix S f) := by
    choose k hk using h
    refine ⟨Finset.univ.sup k, ?_⟩
    ext i j
    rw [stepMatrix_pow, Matrix.zero_apply, if_neg]
    intro e
    have h1 : k i ≤ Finset.univ.sup k := Finset.le_sup (Finset.mem_univ _)
    obtain ⟨m, hm⟩ := Nat.exists_eq_add_of_le' h1
    have := iterate_out_add f (hk i) m
    rw [← hm, e] at this
    exact this j.2
  have h1 := Matrix.isNilpotent_charpoly_sub_pow_of_isNilpotent hnil
  have h2 : (stepMatrix S f).charpoly = Polynomial.X ^ Fintype.card S := by
    rw [← sub_eq_zero]
    exact h1.eq_zero
  have h3 : ((stepMatrix S f).charpoly).eval 1 = 1 := by rw [h2]; simp
  rw [Matrix.eval_charpoly] at h3
  simpa using h3

theorem det_one_sub_of_not_leaves {f : S → V} (h : ¬ Leaves S f) : (1 - stepMatrix S f).det = 0 := by
  classical
  rw [Leaves] at h
  push Not at h
  obtain ⟨v, hv⟩ := h
  rw [← Matrix.exists_mulVec_eq_zero_iff]
  refine ⟨fun i => if ∀ k, (step S f)^[k] i ∈ S then 1 else 0, ?_, ?_⟩
  · intro h0
    have h1 := congrFun h0 ⟨v, hv 0⟩
    simp only [Pi.zero_apply] at h1
    rw [if_pos hv] at h1
    exact one_ne_zero h1
  · ext i
    rw [Matrix.sub_mulVec, Matrix.one_mulVec, Pi.sub_apply, Pi.zero_apply, sub_eq_zero, Matrix.mulVec, dotProduct]
    have hst : step S f i = f i := by rw [step, dif_pos i.2]
    by_cases hf : f i ∈ S
    · rw [Finset.sum_eq_single ⟨f i, hf⟩]
      · rw [stepMatrix, if_pos rfl, one_mul]
        have hiff : (∀ k, (step S f)^[k] i ∈ S) ↔ ∀ k, (step S f)^[k] (f i) ∈ S := by
          constructor
          · intro h k
            have := h (k + 1)
            rwa [Function.iterate_succ_apply, hst] at this
          · intro h k
            cases k with
            | zero => exact i.2
            | succ k =>
              rw [Function.iterate_succ_apply, hst]
              exact h k
        simp only [hiff]
      · intro l _ hl
        rw [stepMatrix, if_neg, zero_mul]
        intro e
        exact hl (Subtype.ext e.symm)
      · intro hc; exact absurd (Finset.mem_univ _) hc
    · rw [if_neg, Finset.sum_eq_zero]
      · intro l _
        rw [stepMatrix, if_neg, zero_mul]
        intro e
        exact hf (by rw [e]; exact l.2)
      · intro h
        have := h 1
        rw [Function.iterate_one, hst] at this
        exact hf this

end

/-- The Laplacian matrix of a relation. -/
def laplacian (a : V → V → Prop) [DecidableRel a] : Matrix V V ℤ := fun i j =>
  (if i = j then ((Finset.univ.filter (fun k => a i k)).card : ℤ) else 0) - if a i j then 1 else 0

open Classical in
/-- The determinant of the rows and columns of `S`. -/
theorem det_principal (a : V → V → Prop) [DecidableRel a] (S : Finset V) :
    ((laplacian a).submatrix (Subtype.val : S → V) Subtype.val).det =
      (Finset.univ.filter (fun f : S → V => (∀ i : S, a i (f i)) ∧ Leaves S f)).card := by
  have hrow : (laplacian a).submatrix (Subtype.val : S → V) Subtype.val = fun i : S =>
      ∑ k ∈ Finset.univ.filter (fun k => a i k), fun j : S => (if i = j then (1 : ℤ) else 0) - if k = j then 1 else 0 := by
    ext i j
    rw [Finset.sum_apply, Finset.sum_sub_distrib, Finset.sum_const, Finset.sum_ite_eq', Matrix.submatrix_apply, laplacian]
    congr 1
    · by_cases h : i = j
      · rw [if_pos h, if_pos (congrArg _ h)]; simp
      · rw [if_neg h, if_neg (fun e => h (Subtype.ext e))]; simp
    · simp
  rw [hrow]
  have hm := (Matrix.detRowAlternating (R := ℤ) (n := S)).toMultilinearMap.map_sum_finset
    (fun (i : S) (k : V) (j : S) => (if i = j then (1 : ℤ) else 0) - if k = j then 1 else 0)
    (fun i : S => Finset.univ.filter (fun k => a i k))
  refine Eq.trans hm ?_
  have hdet : ∀ f : S → V, (Matrix.detRowAlternating (R := ℤ) (n := S)).toMultilinearMap
      (fun i j => (if i = j then (1 : ℤ) else 0) - if f i = j then 1 else 0) = if Leaves S f then 1 else 0 := by
    intro f
    have he : (fun i j : S => (if i = j then (1 : ℤ) else 0) - if f i = j then 1 else 0) =
        (1 - stepMatrix S f : Matrix S S ℤ) := by
      ext i j
      rw [Matrix.sub_apply, Matrix.one_apply, stepMatrix]
    rw [he]
    show (1 - stepMatrix S f).det = _
    by_cases h : Leaves S f
    · rw [if_pos h, det_one_sub_of_leaves h]
    · rw [if_neg h, det_one_sub_of_not_leaves h]
  rw [Finset.sum_congr rfl (fun f _ => hdet f), Finset.sum_boole]
  congr 2
  ext f
  simp [Fintype.mem_piFinset]

open Rosemary.Spec in
/-- If every vertex can be reached from `r`, then the determinants of the principal submatrices without `r` are
positive. -/
theorem det_pos (a : V → V → Prop) [DecidableRel a] (hs : ∀ u v, a u v → a v u) (S : Finset V) (r : V) (hr : r ∉ S)
    (hreach : ∀ v, Reach a r v) : 0 < ((laplacian a).submatrix (Subtype.val : S → V) Subtype.val).det := by
  classical
  rw [det_principal]
  norm_cast
  rw [Finset.card_pos]
  have hd : ∀ v, ∃ n, IsDist a r v n := fun v => (hreach v).isDist
  choose d hd using hd
  have hpred : ∀ i : S, ∃ w, a i w ∧ d w < d i := by
    intro i
    have hi := hd i
    cases hn : d i with
    | zero =>
      rw [hn, isDist_zero_iff] at hi
      exact absurd i.2 (by rw [hi]; exact hr)
    | succ n =>
      rw [hn] at hi
      obtain ⟨w, hw, he⟩ := hi.pred
      exact ⟨w, hs _ _ he, by rw [(hd w).unique hw]; omega⟩
  choose f hf using hpred
  refine ⟨f, Finset.mem_filter.2 ⟨Finset.mem_univ _, fun i : S => (hf i).1, ?_⟩⟩
  have : ∀ n v, d v ≤ n → ∃ k, (step S f)^[k] v ∉ S := by
    intro n
    induction n with
    | zero =>
      intro v hv
      refine ⟨0, fun h : v ∈ S => ?_⟩
      have := (hf ⟨v, h⟩).2
      dsimp only at this
      omega
    | succ n ih =>
      intro v hv
      by_cases h : v ∈ S
      · obtain ⟨k, hk⟩ := ih (f ⟨v, h⟩) (by have := (hf ⟨v, h⟩).2; dsimp only at this; omega)
        refine ⟨k + 1, ?_⟩
        rw [Function.iterate_succ_apply, step, dif_pos h]
        exact hk
      · exact ⟨0, h⟩
  intro v
  exact this _ v le_rfl

end Rosemary.MatrixTree
