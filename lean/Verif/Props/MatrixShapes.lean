import Verif.Props.Matrices

/-!
# C51, sums and differences of matrices of different shapes; C91 for two rows

Lines 105-106 of matrices.py read the dimensions of `self` twice, and `__sub__` compares no dimensions at all.  What
happens for every pair of shapes is determined here.
-/

namespace Rosemary.Props

open Rosemary Rosemary.Matrices

private theorem foldlM_error {σ : Type} {f : ℕ → σ → Except PyErr σ} {E : PyErr} (l : List ℕ)
    (honly : ∀ x s e, f x s = .error e → e = E) (hex : ∃ y ∈ l, ∀ s, ∃ e, f y s = .error e) (s : σ) :
    l.foldlM (fun s x => f x s) s = .error E := by
  induction l generalizing s with
  | nil => simp at hex
  | cons x l ih =>
    rw [List.foldlM_cons]
    cases h : f x s with
    | error e => rw [honly x s e h]; rfl
    | ok s' =>
      refine ih ?_ s'
      obtain ⟨y, hy, hy'⟩ := hex
      rcases List.mem_cons.1 hy with rfl | hy
      · obtain ⟨e, he⟩ := hy' s
        rw [he] at h
        cases h
      · exact ⟨y, hy, hy'⟩

private theorem foldlM_only {σ : Type} {f : ℕ → σ → Except PyErr σ} {E : PyErr} (l : List ℕ)
    (honly : ∀ x s e, f x s = .error e → e = E) (s : σ) (e : PyErr)
    (h : l.foldlM (fun s x => f x s) s = .error e) : e = E := by
  induction l generalizing s with
  | nil => cases h
  | cons x l ih =>
    rw [List.foldlM_cons] at h
    cases h' : f x s with
    | error e' =>
      rw [h'] at h
      cases h
      exact honly x s _ h'
    | ok s' =>
      rw [h'] at h
      exact ih s' h

private theorem get_only (m : Entries) (i j : ℕ) (e : PyErr) (h : Matrices.get m i j = .error e) : e = .indexError := by
  rw [Matrices.get] at h
  split at h
  · cases h; rfl
  · split at h <;> cases h
    rfl

private theorem put_only (m : Entries) (i j : ℕ) (x : ℤ) (e : PyErr) (h : put m i j x = .error e) :
    e = .indexError := by
  rw [put] at h
  split at h
  · cases h; rfl
  · split at h <;> cases h
    rfl

private theorem get_outside {r c : ℕ} (g : ℕ → ℕ → ℤ) {i j : ℕ} (h : ¬ (i < r ∧ j < c)) :
    Matrices.get (table r c g) i j = .error .indexError := by
  by_cases hi : i < r
  · have hj : ¬ j < c := fun hj => h ⟨hi, hj⟩
    simp [Matrices.get, table, hi, hj]
  · exact get_table_row g hi

/-- Filling a table from two operands of which the second is too small somewhere. -/
private theorem fill_error {r c r' c' : ℕ} (op : ℤ → ℤ → ℤ) (g h : ℕ → ℕ → ℤ) (hr : 0 < r) (hc : 0 < c)
    (hsmall : r' < r ∨ c' < c) (s : Entries) :
    forRange 0 r (fun i R => forRange 0 c (fun j R => do
      let x ← Matrices.get (table r c g) i j
      let y ← Matrices.get (table r' c' h) i j
      put R i j (op x y)) R) s = .error .indexError := by
  have honly : ∀ i j (R : Entries) e, (do
      let x ← Matrices.get (table r c g) i j
      let y ← Matrices.get (table r' c' h) i j
      put R i j (op x y) : Except PyErr Entries) = .error e → e = .indexError := by
    intro i j R e he
    cases h1 : Matrices.get (table r c g) i j with
    | error e' => rw [h1] at he; cases he; exact get_only _ _ _ _ h1
    | ok x =>
      cases h2 : Matrices.get (table r' c' h) i j with
      | error e' => rw [h1, h2] at he; cases he; exact get_only _ _ _ _ h2
      | ok y => rw [h1, h2] at he; exact put_only _ _ _ _ _ he
  have hout : ∀ i j (R : Entries), ¬ (i < r' ∧ j < c') → ∃ e, (do
      let x ← Matrices.get (table r c g) i j
      let y ← Matrices.get (table r' c' h) i j
      put R i j (op x y) : Except PyErr Entries) = .error e := by
    intro i j R hij
    cases h1 : Matrices.get (table r c g) i j with
    | error e' => exact ⟨e', rfl⟩
    | ok x => exact ⟨.indexError, by rw [get_outside h hij]; rfl⟩
  refine foldlM_error _ (fun i R e he => foldlM_only _ (honly i) R e he) ?_ s
  rcases hsmall with h' | h'
  · exact ⟨r', by rw [List.mem_range'_1]; omega, fun R => ⟨_, foldlM_error _ (honly r')
      ⟨0, by rw [List.mem_range'_1]; omega, fun R => hout r' 0 R (by omega)⟩ R⟩⟩
  · exact ⟨0, by rw [List.mem_range'_1]; omega, fun R => ⟨_, foldlM_error _ (honly 0)
      ⟨c', by rw [List.mem_range'_1]; omega, fun R => hout 0 c' R (by omega)⟩ R⟩⟩

/-- C51, the missing part for sums and differences: a second operand that is at least as large in both directions is
cut to the shape of the first, without an exception. -/
theorem C51_larger_operand {r c r' c' : ℕ} (h0 : 0 < r) (hr : r ≤ r') (hc : c ≤ c') (A : Matrix (Fin r) (Fin c) ℤ)
    (B : Matrix (Fin r') (Fin c') ℤ) :
    add (rowsOf A) (rowsOf B) = .ok (rowsOf (A + B.submatrix (Fin.castLE hr) (Fin.castLE hc))) ∧
      sub (rowsOf A) (rowsOf B) = .ok (rowsOf (A - B.submatrix (Fin.castLE hr) (Fin.castLE hc))) := by
  have hval : ∀ (i : Fin r) (j : Fin c), extend B i.val j.val = B (Fin.castLE hr i) (Fin.castLE hc j) := fun i j =>
    extend_val B (Fin.castLE hr i) (Fin.castLE hc j)
  constructor
  · rw [add, if_neg (by simp), rowsOf_eq A, rowsOf_eq B, nrows_table, ncols_table h0,
      fill_ok (fun i j => extend A i j + extend B i j) (fun i j R hi hj => by
        rw [get_table _ hi hj, get_table _ (by omega) (by omega)]; rfl)]
    show construct _ = _
    rw [construct_table h0, rowsOf_table (M := A + B.submatrix (Fin.castLE hr) (Fin.castLE hc)) (fun i j => by
      rw [extend_val, hval]; rfl)]
  · rw [sub, rowsOf_eq A, rowsOf_eq B, nrows_table, ncols_table h0,
      fill_ok (fun i j => extend A i j - extend B i j) (fun i j R hi hj => by
        rw [get_table _ hi hj, get_table _ (by omega) (by omega)]; rfl)]
    show construct _ = _
    rw [construct_table h0, rowsOf_table (M := A - B.submatrix (Fin.castLE hr) (Fin.castLE hc)) (fun i j => by
      rw [extend_val, hval]; rfl)]

/-- C51, the missing part for sums and differences: a second operand with fewer rows or fewer columns raises IndexError,
not the ValueError of line 109. -/
theorem C51_smaller_operand {r c r' c' : ℕ} (hr : 0 < r) (hc : 0 < c) (h : r' < r ∨ c' < c)
    (A : Matrix (Fin r) (Fin c) ℤ) (B : Matrix (Fin r') (Fin c') ℤ) :
    add (rowsOf A) (rowsOf B) = .error .indexError ∧ sub (rowsOf A) (rowsOf B) = .error .indexError := by
  constructor
  · rw [add, if_neg (by simp), rowsOf_eq A, rowsOf_eq B, nrows_table, ncols_table hr,
      fill_error (· + ·) _ _ hr hc h]
    rfl
  · rw [sub, rowsOf_eq A, rowsOf_eq B, nrows_table, ncols_table hr, fill_error (· - ·) _ _ hr hc h]
    rfl

example : add [[1, 2]] [[10, 20, 30], [40, 50, 60]] = .ok [[11, 22]] ∧
    sub [[1, 2, 3]] [[1, 2], [1, 2]] = .error .indexError := by decide +kernel

/-- C91, two rows: what is returned and what is left in the matrix, for all entries.  A zero in the corner gives zero. -/
theorem C91_two_by_two (a b c d : ℤ) : determinant [[a, b], [c, d]] =
    if a = 0 then .ok (0, [[a, b], [c, d]]) else .ok (a * d - c * b, [[a, b], [c, a * d - c * b]]) := by
  by_cases h : a = 0
  · rw [if_pos h]
    by_cases hc : c = 0 <;>
    simp [determinant, detLoop, Matrices.get, findRow, h, hc, nrows, ncols, bind, Except.bind]
  · rw [if_neg h]
    simp [determinant, detLoop, Matrices.get, put, eliminate, forRange, h, nrows, ncols, bind, Except.bind,
      List.foldlM, pure, Except.pure]
    intro e
    simp [findRow, afterLoop, e]

/-- C91, two rows: the value is wrong exactly when the corner is zero and both its neighbours are not. -/
theorem C91_two_by_two_wrong (M : Matrix (Fin 2) (Fin 2) ℤ) :
    (determinant (rowsOf M)).map (·.1) = .ok M.det ↔ ¬ (M 0 0 = 0 ∧ M 0 1 ≠ 0 ∧ M 1 0 ≠ 0) := by
  have : rowsOf M = [[M 0 0, M 0 1], [M 1 0, M 1 1]] := by simp [rowsOf]
  rw [this, C91_two_by_two, Matrix.det_fin_two]
  by_cases h : M 0 0 = 0
  · rw [if_pos h, h]
    simp only [Except.map, Except.ok.injEq, zero_mul, zero_sub, true_and]
    rw [eq_comm, neg_eq_zero, mul_eq_zero]
    tauto
  · rw [if_neg h]
    simp only [Except.map, Except.ok.injEq, h, false_and, not_false_eq_true, iff_true]
    ring

example : determinant [[0, 3], [2, 5]] = .ok (0, [[0, 3], [2, 5]]) ∧
    determinant [[2, 3], [4, 5]] = .ok (-2, [[2, 3], [4, -2]]) := by decide +kernel

end Rosemary.Props
