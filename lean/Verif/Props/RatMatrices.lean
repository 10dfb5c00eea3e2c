import Verif.Lemmas.RatMatrices

/-!
# C144: matrices with rational entries
-/

namespace Rosemary.Props

open Rosemary.RatMatrices
open Rosemary.Matrices (forRange forRange_ok forRange_error)
open Rosemary.RatPolys (floorDiv)
open BigOperators

/-- C144: the sum of two matrices of the same size. -/
theorem C144_matrix_add {r c : ℕ} (hr : 0 < r) (A B : Matrix (Fin r) (Fin c) ℚ) : add (rowsOf A) (rowsOf B) = .ok (rowsOf (A + B)) := by
  rw [add, if_neg (by simp), rowsOf_eq A, rowsOf_eq B, nrows_table, ncols_table hr,
    fill_ok (fun i j => extend A i j + extend B i j) (fun i j R hi hj => by rw [get_table _ hi hj, get_table _ hi hj]; rfl)]
  show construct _ = _
  rw [construct_table hr, rowsOf_table (M := A + B) (fun i j => by rw [extend_val, extend_val]; rfl)]

/-- C144: the negative. -/
theorem C144_matrix_neg {r c : ℕ} (hr : 0 < r) (A : Matrix (Fin r) (Fin c) ℚ) : neg (rowsOf A) = .ok (rowsOf (-A)) := by
  rw [neg, rowsOf_eq A, nrows_table, ncols_table hr,
    fill_ok (fun i j => - extend A i j) (fun i j R hi hj => by rw [get_table _ hi hj]; rfl)]
  show construct _ = _
  rw [construct_table hr, rowsOf_table (M := -A) (fun i j => by rw [extend_val]; rfl)]

/-- C144: the difference of two matrices of the same size. -/
theorem C144_matrix_sub {r c : ℕ} (hr : 0 < r) (A B : Matrix (Fin r) (Fin c) ℚ) : sub (rowsOf A) (rowsOf B) = .ok (rowsOf (A - B)) := by
  rw [sub, rowsOf_eq A, rowsOf_eq B, nrows_table, ncols_table hr,
    fill_ok (fun i j => extend A i j - extend B i j) (fun i j R hi hj => by rw [get_table _ hi hj, get_table _ hi hj]; rfl)]
  show construct _ = _
  rw [construct_table hr, rowsOf_table (M := A - B) (fun i j => by rw [extend_val, extend_val]; rfl)]

/-- C144: multiples. -/
theorem C144_matrix_scale {r c : ℕ} (hr : 0 < r) (A : Matrix (Fin r) (Fin c) ℚ) (x : ℚ) : scale (rowsOf A) x = .ok (rowsOf (x • A)) := by
  rw [scale, rowsOf_eq A, nrows_table, ncols_table hr,
    fill_ok (fun i j => x * extend A i j) (fun i j R hi hj => by rw [get_table _ hi hj]; rfl)]
  show (match construct _ with | .ok r => Except.ok r | .error _ => Except.error PyErr.valueError) = _
  rw [construct_table hr, rowsOf_table (M := x • A) (fun i j => by rw [extend_val]; rfl)]

/-- C144: the product of an n by p and a p by n matrix. -/
theorem C144_matrix_mul_partial {n p : ℕ} (hn : 0 < n) (hp : 0 < p) (A : Matrix (Fin n) (Fin p) ℚ) (B : Matrix (Fin p) (Fin n) ℚ) :
    mul (rowsOf A) (rowsOf B) = .ok (rowsOf (A * B)) := by
  rw [mul, rowsOf_eq A, rowsOf_eq B, nrows_table, nrows_table, ncols_table hn, ncols_table hp, if_neg (by simp),
    fill_ok (fun i j => ∑ k ∈ Finset.range p, extend A i k * extend B k j) (fun i j R hi hj => by rw [dot_ok A B hi hj]; rfl)]
  show construct _ = _
  rw [construct_table hn, rowsOf_table (M := A * B) (fun i j => ?_)]
  rw [Matrix.mul_apply, Finset.sum_range]
  exact Finset.sum_congr rfl (fun k _ => by rw [extend_val, extend_val])

/-- C144, the missing part: every other product of conformable matrices raises an IndexError. -/
theorem C144_matrix_mul_violation {m p n : ℕ} (hm : 0 < m) (hp : 0 < p) (hn : 0 < n) (hne : m ≠ n) (A : Matrix (Fin m) (Fin p) ℚ)
    (B : Matrix (Fin p) (Fin n) ℚ) : mul (rowsOf A) (rowsOf B) = .error .indexError := by
  rw [mul, rowsOf_eq A, rowsOf_eq B, nrows_table, nrows_table, ncols_table hm, ncols_table hp, if_neg (by simp)]
  set v : ℕ → ℕ → ℚ := fun i j => ∑ k ∈ Finset.range p, extend A i k * extend B k j with hv
  rcases Nat.lt_or_gt_of_ne hne with h | h
  · -- the first row is too short
    have hrow : forRange 0 n (fun j R => do
        let total ← forRange 0 p (fun k t => do
          let x ← get (table m p (extend A)) 0 k
          let y ← get (table p n (extend B)) k j
          .ok (t + x * y)) 0
        put R 0 j total) (zeros n m) = .error .indexError := by
      have h0 : zeros n m = (fun j => table n m (fun a b => if a = 0 ∧ b < j then v a b else 0)) 0 := by
        rw [zeros_eq]; exact table_congr (fun a b _ _ => by simp)
      rw [h0]
      refine forRange_error (y := m) (fun j => table n m (fun a b => if a = 0 ∧ b < j then v a b else 0)) (Nat.zero_le _) h ?_ ?_
      · intro j _ hj
        rw [dot_ok A B hm (by omega)]
        show put _ 0 j _ = _
        rw [put_table _ hn hj]
        congr 1
        refine table_congr (fun a b ha hb => ?_)
        rw [upd]
        by_cases e : a = 0 ∧ b = j
        · rw [if_pos e, if_pos (by omega), e.1, e.2]
        · rw [if_neg e]
          by_cases e' : a = 0 ∧ b < j
          · rw [if_pos e', if_pos (by omega)]
          · rw [if_neg e', if_neg (by omega)]
      · rw [dot_ok A B hm (by omega)]
        exact put_table_col _ (by omega) _
    have := forRange_error (a := 0) (b := m) (y := 0) (f := fun i R => forRange 0 n (fun j R => do
        let total ← forRange 0 p (fun k t => do
          let x ← get (table m p (extend A)) i k
          let y ← get (table p n (extend B)) k j
          .ok (t + x * y)) 0
        put R i j total) R) (fun _ => zeros n m) (le_refl _) hm (fun x _ hx => by omega) hrow
    rw [this]
    rfl
  · -- there are too few rows
    have := forRange_error (a := 0) (b := m) (y := n) (e := .indexError) (f := fun i R => forRange 0 n (fun j R => do
        let total ← forRange 0 p (fun k t => do
          let x ← get (table m p (extend A)) i k
          let y ← get (table p n (extend B)) k j
          .ok (t + x * y)) 0
        put R i j total) R) (fun i => table n m (fun a b => if a < i ∧ b < n then v a b else 0)) (Nat.zero_le _) h (by
      intro i _ hi
      have h1 : table n m (fun a b => if a < i ∧ b < n then v a b else 0) =
          (fun j => table n m (fun a b => if (a < i ∧ b < n) ∨ (a = i ∧ b < j) then v a b else 0)) 0 :=
        table_congr (fun a b _ _ => by simp)
      rw [h1, forRange_ok (fun j => table n m (fun a b => if (a < i ∧ b < n) ∨ (a = i ∧ b < j) then v a b else 0)) (Nat.zero_le n)]
      · congr 1
        refine table_congr (fun a b ha hb => ?_)
        by_cases e : a < i + 1 ∧ b < n
        · rw [if_pos e, if_pos (by omega)]
        · rw [if_neg e, if_neg (by omega)]
      · intro j _ hj
        rw [dot_ok A B (by omega) hj]
        show put _ i j _ = _
        rw [put_table _ hi (by omega)]
        congr 1
        refine table_congr (fun a b ha hb => ?_)
        rw [upd]
        by_cases e : a = i ∧ b = j
        · rw [if_pos e, if_pos (by omega), e.1, e.2]
        · rw [if_neg e]
          by_cases e' : (a < i ∧ b < n) ∨ (a = i ∧ b < j)
          · rw [if_pos e', if_pos (by omega)]
          · rw [if_neg e', if_neg (by omega)]) (by
      have h1 : table n m (fun a b => if a < n ∧ b < n then v a b else 0) =
          (fun _ => table n m (fun a b => if a < n ∧ b < n then v a b else 0)) 0 := rfl
      rw [h1]
      refine forRange_error (y := 0) (fun _ => table n m (fun a b => if a < n ∧ b < n then v a b else 0)) (le_refl _) hn
        (fun x _ hx => by omega) ?_
      rw [dot_ok A B h hn]
      exact put_table_row _ (by omega) _)
    have h0 : zeros n m = table n m (fun a b => if a < 0 ∧ b < n then v a b else 0) := by
      rw [zeros_eq]; exact table_congr (fun a b _ _ => by simp)
    rw [h0, this]
    rfl

/-- C144: matrices that are not conformable raise a ValueError. -/
theorem C144_matrix_mul_raises {m p q n : ℕ} (hm : 0 < m) (hpq : p ≠ q) (A : Matrix (Fin m) (Fin p) ℚ)
    (B : Matrix (Fin q) (Fin n) ℚ) : mul (rowsOf A) (rowsOf B) = .error .valueError := by
  rw [mul, rowsOf_eq A, rowsOf_eq B, nrows_table, ncols_table hm, if_pos hpq]

/-- C144: for at least two rows `determinant` never raises, and what it returns is always an integer. -/
theorem C144_determinant_integer {n : ℕ} (hn : 2 ≤ n) (M : Matrix (Fin n) (Fin n) ℚ) :
    ∃ (z : ℤ) (m' : List (List ℚ)), determinant (rowsOf M) = .ok ((z : ℚ), m') := by
  rw [determinant, rowsOf_eq, nrows_table, ncols_table (by omega), if_neg (by simp)]
  obtain ⟨d, m', h⟩ := detLoop_total hn n 0 (by omega) (extend M) 1 1 one_ne_zero none (Or.inl rfl)
  obtain ⟨z, rfl⟩ := detLoop_whole n 0 (by omega) _ _ _ _ ⟨1, by simp⟩ hn (fun h => absurd h (by omega)) (fun h => absurd h (by omega)) h
  exact ⟨z, m', h⟩

/-- C144, the missing part: the answer is wrong for every matrix whose determinant is not an integer. -/
theorem C144_determinant_violation {n : ℕ} (hn : 2 ≤ n) (M : Matrix (Fin n) (Fin n) ℚ) (h : ∀ z : ℤ, M.det ≠ z) :
    ∃ d m', determinant (rowsOf M) = .ok (d, m') ∧ d ≠ M.det := by
  obtain ⟨z, m', hz⟩ := C144_determinant_integer hn M
  exact ⟨z, m', hz, fun e => h z e.symm⟩

/-- C144: two by two matrices with a nonzero corner: the integer part of the determinant is returned, and it replaces the last
entry. -/
theorem C144_two_by_two {a b c d : ℚ} (ha : a ≠ 0) :
    ∃ m', determinant [[a, b], [c, d]] = .ok (((⌊a * d - b * c⌋ : ℤ) : ℚ), m') := by
  have e1 : eliminate 2 0 a 1 [[a, b], [c, d]] = .ok [[a, b], [c, floorDiv (a * d - c * b) 1]] := by
    simp [eliminate, forRange, RatMatrices.get, put, Bind.bind, Except.bind, pure, Except.pure]
  have e2 : ∀ x y : ℚ, eliminate 2 1 x y [[a, b], [c, x]] = .ok [[a, b], [c, x]] := by
    intro x y
    simp [eliminate, forRange, pure, Except.pure]
  have hf : floorDiv (a * d - c * b) 1 = ((⌊a * d - b * c⌋ : ℤ) : ℚ) := by
    unfold floorDiv
    rw [div_one, mul_comm c b]
  refine ⟨[[a, b], [c, ((⌊a * d - b * c⌋ : ℤ) : ℚ)]], ?_⟩
  have e3 : determinant [[a, b], [c, d]] = detLoop 2 2 0 [[a, b], [c, d]] 1 1 none := rfl
  rw [e3, detLoop]
  have g1 : get [[a, b], [c, d]] 0 0 = .ok a := rfl
  have g2 : ∀ x, get [[a, b], [c, x]] 1 1 = .ok x := fun x => rfl
  rw [g1]
  simp only [Bind.bind, Except.bind]
  rw [if_neg ha, e1]
  simp only
  rw [detLoop, g2]
  simp only [Bind.bind, Except.bind]
  rw [hf]
  by_cases hz : ((⌊a * d - b * c⌋ : ℤ) : ℚ) = 0
  · rw [if_pos hz, hz]
    rfl
  · rw [if_neg hz, e2]
    simp only
    rw [detLoop, g2]
    simp [Bind.bind, Except.bind]

/-- C144: `determinant` of a two by two matrix is right just if the determinant is an integer and the corner is not zero, or
the corner and the determinant are zero. -/
theorem C144_two_by_two_partial (a b c d : ℚ) :
    (∃ m', determinant [[a, b], [c, d]] = .ok ((Matrix.of ![![a, b], ![c, d]]).det, m')) ↔
      (a ≠ 0 ∧ ∃ z : ℤ, a * d - b * c = z) ∨ b * c = 0 ∧ a = 0 := by
  have hd : (Matrix.of ![![a, b], ![c, d]]).det = a * d - b * c := by
    rw [Matrix.det_fin_two]
    rfl
  rw [hd]
  by_cases ha : a = 0
  · subst ha
    have h0 : determinant [[0, b], [c, d]] = .ok (0, [[0, b], [c, d]]) := by
      have e3 : determinant [[0, b], [c, d]] = detLoop 2 2 0 [[0, b], [c, d]] 1 1 none := rfl
      have g1 : get [[0, b], [c, d]] 0 0 = .ok 0 := rfl
      have g2 : get [[0, b], [c, d]] 1 0 = .ok c := rfl
      rw [e3, detLoop, g1]
      simp only [Bind.bind, Except.bind, if_true]
      have hf : findRow [[0, b], [c, d]] 0 (List.range' (0 + 1) (2 - (0 + 1))) none = .ok (some 1) := by
        show findRow [[0, b], [c, d]] 0 [1] none = _
        rw [findRow, g2]
        simp only [Bind.bind, Except.bind, findRow, ite_self]
      rw [hf]
      rfl
    rw [h0]
    constructor
    · rintro ⟨m', h⟩
      simp only [Except.ok.injEq, Prod.mk.injEq] at h
      exact Or.inr ⟨by linarith [h.1], rfl⟩
    · rintro (⟨h, -⟩ | ⟨h, -⟩)
      · exact absurd rfl h
      · exact ⟨_, by rw [h, zero_mul, sub_zero]⟩
  · obtain ⟨m', h⟩ := C144_two_by_two (b := b) (c := c) (d := d) ha
    rw [h]
    constructor
    · rintro ⟨m2, h2⟩
      simp only [Except.ok.injEq, Prod.mk.injEq] at h2
      exact Or.inl ⟨ha, _, h2.1.symm⟩
    · rintro (⟨-, z, hz⟩ | ⟨-, h⟩)
      · exact ⟨m', by rw [hz, Int.floor_intCast]⟩
      · exact absurd h ha

/-- C144: integers as fractions: `determinant` of the rational matrix is that of the integer matrix, so what is known of
integer matrices (C91) holds. -/
theorem C144_integer_entries (m : List (List ℤ)) :
    determinant (m.map (fun row => row.map (fun x : ℤ => (x : ℚ)))) =
      (Matrices.determinant m).map (fun r => ((r.1 : ℚ), r.2.map (fun row => row.map (fun x : ℤ => (x : ℚ))))) := by
  have h := detLoop_lift (Matrices.ncols m) (Matrices.ncols m) 0 m 1 1 none
  have h1 := nrows_lift m
  have h2 := ncols_lift m
  unfold determinant Matrices.determinant
  unfold lift at h h1 h2
  rw [h1, h2]
  by_cases e : Matrices.nrows m ≠ Matrices.ncols m
  · rw [if_pos e, if_pos e]
    rfl
  · rw [if_neg e, if_neg e]
    push_cast at h
    exact h

/-- C144: a matrix that is not square raises a ValueError. -/
theorem C144_not_square {r c : ℕ} (hr : 0 < r) (h : r ≠ c) (M : Matrix (Fin r) (Fin c) ℚ) :
    determinant (rowsOf M) = .error .valueError := by
  rw [determinant, rowsOf_eq, nrows_table, ncols_table hr, if_pos h]

example : (determinant [[1/2, 0], [0, 1/2]]).map (·.1) = .ok 0 := by decide +kernel
example : (determinant [[1/2, 1], [3, 10]]).map (·.1) = .ok 2 := by decide +kernel
example : (determinant [[1/2, 1], [3, 9]]).map (·.1) = .ok 1 := by decide +kernel
example : mul [[1/2, 2, 3], [4, 5, 6]] [[1, 0], [2, 1/3], [0, 3]] = .ok [[9/2, 29/3], [14, 59/3]] := by decide +kernel

end Rosemary.Props
