import Verif.Props.Matrices
import Mathlib.LinearAlgebra.Matrix.Gershgorin
import Mathlib.LinearAlgebra.Matrix.Block
import Mathlib.LinearAlgebra.Matrix.ToLinearEquiv
import Mathlib.Analysis.Normed.Ring.Lemmas

/-!
# C195: expressions of matrices, and determinants that can be relied on

`determinant` returns zero when the only pivot is in the last row (C91).  For triangular matrices, for matrices with
dominant diagonal and for definite ones this does not happen to matter, and on these a user gets the determinant.
-/

namespace Rosemary.Props

open Rosemary Rosemary.Matrices
open BigOperators

/-- C195, sums: the laws of addition for matrices of one shape, as equations between the results of the methods. -/
theorem C195_sums {r c : ℕ} (hr : 0 < r) (A B C : Matrix (Fin r) (Fin c) ℤ) (x y : ℤ) :
    (add (rowsOf A) (rowsOf B)).bind (add · (rowsOf C)) = (add (rowsOf B) (rowsOf C)).bind (add (rowsOf A) ·) ∧
      add (rowsOf A) (rowsOf B) = add (rowsOf B) (rowsOf A) ∧
      sub (rowsOf A) (rowsOf B) = (neg (rowsOf B)).bind (add (rowsOf A) ·) ∧
      (neg (rowsOf A)).bind neg = .ok (rowsOf A) ∧
      (sub (rowsOf A) (rowsOf B)).bind (add · (rowsOf B)) = .ok (rowsOf A) ∧
      (add (rowsOf A) (rowsOf B)).bind (scale · x) =
        (scale (rowsOf A) x).bind (fun P => (scale (rowsOf B) x).bind (add P ·)) ∧
      scale (rowsOf A) (x * y) = (scale (rowsOf A) y).bind (scale · x) := by
  refine ⟨?_, ?_, ?_, ?_, ?_, ?_, ?_⟩ <;>
    simp only [C51_add hr, C51_sub hr, C51_neg hr, C51_scale hr, Except.bind]
  · rw [add_assoc]
  · rw [add_comm]
  · rw [sub_eq_add_neg]
  · rw [neg_neg]
  · rw [sub_add_cancel]
  · rw [smul_add]
  · rw [mul_smul]

/-- C195, products: multiplication distributes over addition and commutes with numbers whenever the products exist for
the code, that is, when the result is square; it is associative for square matrices. -/
theorem C195_products {n p : ℕ} (hn : 0 < n) (hp : 0 < p) (A A' : Matrix (Fin n) (Fin p) ℤ)
    (B B' : Matrix (Fin p) (Fin n) ℤ) (S T U : Matrix (Fin n) (Fin n) ℤ) (x : ℤ) :
    (add (rowsOf A) (rowsOf A')).bind (mul · (rowsOf B)) =
        (mul (rowsOf A) (rowsOf B)).bind (fun P => (mul (rowsOf A') (rowsOf B)).bind (add P ·)) ∧
      (add (rowsOf B) (rowsOf B')).bind (mul (rowsOf A) ·) =
        (mul (rowsOf A) (rowsOf B)).bind (fun P => (mul (rowsOf A) (rowsOf B')).bind (add P ·)) ∧
      (scale (rowsOf A) x).bind (mul · (rowsOf B)) = (mul (rowsOf A) (rowsOf B)).bind (scale · x) ∧
      (scale (rowsOf B) x).bind (mul (rowsOf A) ·) = (mul (rowsOf A) (rowsOf B)).bind (scale · x) ∧
      (mul (rowsOf S) (rowsOf T)).bind (mul · (rowsOf U)) = (mul (rowsOf T) (rowsOf U)).bind (mul (rowsOf S) ·) := by
  refine ⟨?_, ?_, ?_, ?_, ?_⟩ <;>
    simp only [C51_add hn, C51_add hp, C51_scale hn, C51_scale hp, C51_mul_partial hn hp, C51_mul_partial hn hn,
      Except.bind]
  · rw [Matrix.add_mul]
  · rw [Matrix.mul_add]
  · rw [Matrix.smul_mul]
  · rw [Matrix.mul_smul]
  · rw [Matrix.mul_assoc]

/-- C195, what is lost: where rectangular matrices are multiplied, brackets matter.  With `A` of shape `n × p`, `B` of
shape `p × n` and `S` square, `(A * B) * S` is computed while `A * (B * S)` raises IndexError. -/
theorem C195_associativity_violation {n p : ℕ} (hn : 0 < n) (hp : 0 < p) (hne : n ≠ p)
    (A : Matrix (Fin n) (Fin p) ℤ) (B : Matrix (Fin p) (Fin n) ℤ) (S : Matrix (Fin n) (Fin n) ℤ) :
    (mul (rowsOf A) (rowsOf B)).bind (mul · (rowsOf S)) = .ok (rowsOf (A * B * S)) ∧
      (mul (rowsOf B) (rowsOf S)).bind (mul (rowsOf A) ·) = .error .indexError := by
  constructor
  · rw [C51_mul_partial hn hp, Except.bind, C51_mul_partial hn hn]
  · rw [C51_mul_violation hp hn hn (Ne.symm hne), Except.bind]

example : (mul [[1, 2]] [[3], [4]]).bind (mul · [[5]]) = .ok [[55]] ∧
    (mul [[3], [4]] [[5]]).bind (mul [[1, 2]] ·) = .error .indexError := by decide +kernel

/-- If the leading minors vanish only where the determinant does, the right value is returned. -/
private theorem det_ok {n : ℕ} (hn : 2 ≤ n) (M : Matrix (Fin n) (Fin n) ℤ)
    (h : M.det ≠ 0 → ∀ k (hk : k < n), leadingMinor M k hk.le ≠ 0) :
    (determinant (rowsOf M)).map (·.1) = .ok M.det := by
  by_cases h0 : M.det = 0
  · obtain ⟨d, m', h1, h2⟩ := C91_determinant_partial hn M
    rw [h1, h0]
    rcases h2 with rfl | rfl
    · rw [h0]; rfl
    · rfl
  · obtain ⟨m', h1⟩ := C91_determinant_regular hn M (h h0)
    rw [h1]
    rfl

/-- C195, triangular matrices: the product of the diagonal is returned, zeros on the diagonal included. -/
theorem C195_triangular {n : ℕ} (hn : 2 ≤ n) (M : Matrix (Fin n) (Fin n) ℤ)
    (h : (∀ i j, j < i → M i j = 0) ∨ ∀ i j, i < j → M i j = 0) :
    (determinant (rowsOf M)).map (·.1) = .ok (∏ i, M i i) := by
  have key : ∀ {k : ℕ} (N : Matrix (Fin k) (Fin k) ℤ), (∀ i j, j < i → N i j = 0) ∨ (∀ i j, i < j → N i j = 0) →
      N.det = ∏ i, N i i := by
    rintro k N (h | h)
    · exact Matrix.det_of_upperTriangular fun i j hij => h i j hij
    · exact Matrix.det_of_lowerTriangular N fun i j hij => h i j hij
  rw [← key M h]
  refine det_ok hn M fun h0 k hk => ?_
  rw [key M h, Finset.prod_ne_zero_iff] at h0
  rw [leadingMinor, key]
  · rw [Finset.prod_ne_zero_iff]
    exact fun i _ => h0 _ (Finset.mem_univ _)
  · rcases h with h | h
    · exact Or.inl fun i j hij => h _ _ (by simpa using hij)
    · exact Or.inr fun i j hij => h _ _ (by simpa using hij)

/-- C195, definite matrices: if `x M x` is zero for the zero vector only, the determinant is returned. -/
theorem C195_definite {n : ℕ} (hn : 2 ≤ n) (M : Matrix (Fin n) (Fin n) ℤ)
    (h : ∀ v : Fin n → ℤ, v ≠ 0 → ∑ i, ∑ j, v i * M i j * v j ≠ 0) :
    (determinant (rowsOf M)).map (·.1) = .ok M.det := by
  refine det_ok hn M fun _ k hk hdet => ?_
  obtain ⟨v, hv, h0⟩ := Matrix.exists_mulVec_eq_zero_iff.2 hdet
  set w : Fin n → ℤ := fun i => if hi : i.val < k then v ⟨i.val, hi⟩ else 0 with hw
  have hwv : ∀ i : Fin k, w (Fin.castLE hk.le i) = v i := fun i => by simp [hw]
  have hsum : ∀ f : Fin n → ℤ, (∀ i : Fin n, ¬ i.val < k → f i = 0) → ∑ i, f i = ∑ i : Fin k, f (Fin.castLE hk.le i) := by
    intro f hf
    rw [← Finset.sum_subset (s₁ := Finset.univ.map (Fin.castLEEmb hk.le)) (Finset.subset_univ _)]
    · rw [Finset.sum_map]; rfl
    · intro i _ hi
      refine hf i fun hik => hi ?_
      rw [Finset.mem_map]
      exact ⟨⟨i.val, hik⟩, Finset.mem_univ _, rfl⟩
  refine h w ?_ ?_
  · intro e
    apply hv
    funext i
    rw [← hwv i, e]
    rfl
  · rw [hsum _ (fun i hi => by simp [hw, hi])]
    refine Finset.sum_eq_zero fun i _ => ?_
    rw [hsum _ (fun j hj => by simp [hw, hj])]
    have := congrFun h0 i
    simp only [Matrix.mulVec, dotProduct, Matrix.submatrix_apply, Pi.zero_apply] at this
    simp only [hwv, mul_assoc]
    rw [← Finset.mul_sum, this, mul_zero]

/-- C195, dominant diagonal: if in each row the diagonal entry is larger in absolute value than the others together,
the determinant is returned. -/
theorem C195_dominant {n : ℕ} (hn : 2 ≤ n) (M : Matrix (Fin n) (Fin n) ℤ)
    (h : ∀ i, ∑ j ∈ Finset.univ.erase i, |M i j| < |M i i|) :
    (determinant (rowsOf M)).map (·.1) = .ok M.det ∧ M.det ≠ 0 := by
  have key : ∀ {k : ℕ} (N : Matrix (Fin k) (Fin k) ℤ), (∀ i, ∑ j ∈ Finset.univ.erase i, |N i j| < |N i i|) →
      N.det ≠ 0 := by
    intro k N hN e
    refine det_ne_zero_of_sum_row_lt_diag (K := ℝ) (A := N.map (Int.cast : ℤ → ℝ)) ?_ ?_
    · intro i
      simp only [Matrix.map_apply, Real.norm_eq_abs]
      exact_mod_cast hN i
    · have := (Int.castRingHom ℝ).map_det N
      rw [e, map_zero] at this
      exact this.symm
  refine ⟨det_ok hn M fun _ k hk => key _ fun i => ?_, key M h⟩
  refine lt_of_le_of_lt ?_ (h (Fin.castLE hk.le i))
  have : ∑ j ∈ Finset.univ.erase i, |M (Fin.castLE hk.le i) (Fin.castLE hk.le j)| =
      ∑ j ∈ (Finset.univ.erase i).map (Fin.castLEEmb hk.le), |M (Fin.castLE hk.le i) j| := by
    rw [Finset.sum_map]; rfl
  simp only [Matrix.submatrix_apply]
  rw [this]
  refine Finset.sum_le_sum_of_subset_of_nonneg ?_ fun _ _ _ => abs_nonneg _
  intro j hj
  obtain ⟨j', hj', rfl⟩ := Finset.mem_map.1 hj
  refine Finset.mem_erase.2 ⟨fun e => (Finset.mem_erase.1 hj').1 ?_, Finset.mem_univ _⟩
  exact Fin.castLE_injective hk.le e

/-- C195, products of determinants: a value other than zero returned for a product is the product of the determinants;
if it is right for all three matrices the values multiply. -/
theorem C195_determinant_product {n : ℕ} (hn : 2 ≤ n) (A B : Matrix (Fin n) (Fin n) ℤ) (d : ℤ)
    (h : ((mul (rowsOf A) (rowsOf B)).bind determinant).map (·.1) = .ok d) : d = A.det * B.det ∨ d = 0 := by
  rw [C51_mul_partial (by omega) (by omega), Except.bind] at h
  obtain ⟨d', m', h1, h2⟩ := C91_determinant_partial hn (A * B)
  rw [h1] at h
  cases h
  rwa [Matrix.det_mul] at h2

example : (determinant [[2, 7, 1], [0, 0, 5], [0, 0, 3]]).map (·.1) = .ok 0 ∧
    (determinant [[2, 7, 1], [0, 4, 5], [0, 0, 3]]).map (·.1) = .ok 24 ∧
    (determinant [[5, 1, -2], [1, -4, 2], [0, 3, 4]]).map (·.1) = .ok (-120) ∧
    (determinant [[0, 1], [1, 0]]).map (·.1) = .ok 0 := by decide +kernel

end Rosemary.Props
