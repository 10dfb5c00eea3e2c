import Verif.Lemmas.Matrices

/-!
# Matrices (C51, C91)
-/

namespace Rosemary.Props

open Rosemary.Matrices
open BigOperators

/-- The list of the rows of a matrix. -/
def rowsOf {r c : ℕ} (M : Matrix (Fin r) (Fin c) ℤ) : List (List ℤ) := List.ofFn (fun i => List.ofFn (fun j => M i j))

/-- Entries outside are zero. -/
def extend {r c : ℕ} (M : Matrix (Fin r) (Fin c) ℤ) : ℕ → ℕ → ℤ :=
  fun i j => if h : i < r ∧ j < c then M ⟨i, h.1⟩ ⟨j, h.2⟩ else 0

theorem extend_val {r c : ℕ} (M : Matrix (Fin r) (Fin c) ℤ) (i : Fin r) (j : Fin c) : extend M i.val j.val = M i j := by
  rw [extend, dif_pos ⟨i.2, j.2⟩]

theorem rowsOf_eq {r c : ℕ} (M : Matrix (Fin r) (Fin c) ℤ) : rowsOf M = table r c (extend M) := by
  rw [rowsOf, table]
  simp only [extend_val]

theorem rowsOf_table {r c : ℕ} {M : Matrix (Fin r) (Fin c) ℤ} {g : ℕ → ℕ → ℤ} (h : ∀ (i : Fin r) (j : Fin c), g i.val j.val = M i j) :
    table r c g = rowsOf M := by
  rw [rowsOf, table]
  simp only [h]

/-- C51: the sum of two matrices of the same size. -/
theorem C51_add {r c : ℕ} (hr : 0 < r) (A B : Matrix (Fin r) (Fin c) ℤ) : add (rowsOf A) (rowsOf B) = .ok (rowsOf (A + B)) := by
  rw [add, if_neg (by simp), rowsOf_eq A, rowsOf_eq B, nrows_table, ncols_table hr,
    fill_ok (fun i j => extend A i j + extend B i j) (fun i j R hi hj => by rw [get_table _ hi hj, get_table _ hi hj]; rfl)]
  show construct _ = _
  rw [construct_table hr, rowsOf_table (M := A + B) (fun i j => by rw [extend_val, extend_val]; rfl)]

/-- C51: the negative. -/
theorem C51_neg {r c : ℕ} (hr : 0 < r) (A : Matrix (Fin r) (Fin c) ℤ) : neg (rowsOf A) = .ok (rowsOf (-A)) := by
  rw [neg, rowsOf_eq A, nrows_table, ncols_table hr,
    fill_ok (fun i j => - extend A i j) (fun i j R hi hj => by rw [get_table _ hi hj]; rfl)]
  show construct _ = _
  rw [construct_table hr, rowsOf_table (M := -A) (fun i j => by rw [extend_val]; rfl)]

/-- C51: the difference of two matrices of the same size. -/
theorem C51_sub {r c : ℕ} (hr : 0 < r) (A B : Matrix (Fin r) (Fin c) ℤ) : sub (rowsOf A) (rowsOf B) = .ok (rowsOf (A - B)) := by
  rw [sub, rowsOf_eq A, rowsOf_eq B, nrows_table, ncols_table hr,
    fill_ok (fun i j => extend A i j - extend B i j) (fun i j R hi hj => by rw [get_table _ hi hj, get_table _ hi hj]; rfl)]
  show construct _ = _
  rw [construct_table hr, rowsOf_table (M := A - B) (fun i j => by rw [extend_val, extend_val]; rfl)]

/-- C51: multiples. -/
theorem C51_scale {r c : ℕ} (hr : 0 < r) (A : Matrix (Fin r) (Fin c) ℤ) (x : ℤ) : scale (rowsOf A) x = .ok (rowsOf (x • A)) := by
  rw [scale, rowsOf_eq A, nrows_table, ncols_table hr,
    fill_ok (fun i j => x * extend A i j) (fun i j R hi hj => by rw [get_table _ hi hj]; rfl)]
  show (match construct _ with | .ok r => Except.ok r | .error _ => Except.error PyErr.valueError) = _
  rw [construct_table hr, rowsOf_table (M := x • A) (fun i j => by rw [extend_val]; rfl)]

/-- The inner loop of the product. -/
theorem dot_ok {r p c : ℕ} (A : Matrix (Fin r) (Fin p) ℤ) (B : Matrix (Fin p) (Fin c) ℤ) {i j : ℕ} (hi : i < r) (hj : j < c) :
    forRange 0 p (fun k t => do
      let x ← get (table r p (extend A)) i k
      let y ← get (table p c (extend B)) k j
      .ok (t + x * y)) (0 : ℤ) = .ok (∑ k ∈ Finset.range p, extend A i k * extend B k j) := by
  have := forRange_ok (a := 0) (b := p) (f := fun k t => do
      let x ← get (table r p (extend A)) i k
      let y ← get (table p c (extend B)) k j
      .ok (t + x * y)) (fun m => ∑ k ∈ Finset.range m, extend A i k * extend B k j) (Nat.zero_le p) (by
    intro k _ hk
    rw [get_table _ hi hk, get_table _ hk hj, Finset.sum_range_succ]
    rfl)
  exact this

/-- C51: the product of an n by p and a p by n matrix. -/
theorem C51_mul_partial {n p : ℕ} (hn : 0 < n) (hp : 0 < p) (A : Matrix (Fin n) (Fin p) ℤ) (B : Matrix (Fin p) (Fin n) ℤ) :
    mul (rowsOf A) (rowsOf B) = .ok (rowsOf (A * B)) := by
  rw [mul, rowsOf_eq A, rowsOf_eq B, nrows_table, nrows_table, ncols_table hn, ncols_table hp, if_neg (by simp),
    fill_ok (fun i j => ∑ k ∈ Finset.range p, extend A i k * extend B k j) (fun i j R hi hj => by rw [dot_ok A B hi hj]; rfl)]
  show construct _ = _
  rw [construct_table hn, rowsOf_table (M := A * B) (fun i j => ?_)]
  rw [Matrix.mul_apply, Finset.sum_range]
  exact Finset.sum_congr rfl (fun k _ => by rw [extend_val, extend_val])

/-- C51, the missing part: every other product of conformable matrices raises an IndexError. -/
theorem C51_mul_violation {m p n : ℕ} (hm : 0 < m) (hp : 0 < p) (hn : 0 < n) (hne : m ≠ n) (A : Matrix (Fin m) (Fin p) ℤ)
    (B : Matrix (Fin p) (Fin n) ℤ) : mul (rowsOf A) (rowsOf B) = .error .indexError := by
  rw [mul, rowsOf_eq A, rowsOf_eq B, nrows_table, nrows_table, ncols_table hm, ncols_table hp, if_neg (by simp)]
  set v : ℕ → ℕ → ℤ := fun i j => ∑ k ∈ Finset.range p, extend A i k * extend B k j with hv
  rcases Nat.lt_or_gt_of_ne hne with h | h
  · -- the first row is too short
    have hrow : forRange 0 n (fun j R => do
        let total ← forRange 0 p (fun k t => do
          let x ← get (table m p (extend A)) 0 k
          let y ← get (table p n (extend B)) k j
          .ok (t + x * y)) 0
        put R 0 j total) (zeros n m) = .error .indexError := by
      have h0 : zeros n m = (fun j => table n m (fun a b => if a = 0 ∧ b < j then v a b else 0)) 0 := by
        rw [zeros_eq]; exact table_congr (fun a b _ _ => by simp)
      rw [h0]
      refine forRange_error (y := m) (fun j => table n m (fun a b => if a = 0 ∧ b < j then v a b else 0)) (Nat.zero_le _) h ?_ ?_
      · intro j _ hj
        rw [dot_ok A B hm (by omega)]
        show put _ 0 j _ = _
        rw [put_table _ hn hj]
        congr 1
        refine table_congr (fun a b ha hb => ?_)
        rw [upd]
        by_cases e : a = 0 ∧ b = j
        · rw [if_pos e, if_pos (by omega), e.1, e.2]
        · rw [if_neg e]
          by_cases e' : a = 0 ∧ b < j
          · rw [if_pos e', if_pos (by omega)]
          · rw [if_neg e', if_neg (by omega)]
      · rw [dot_ok A B hm (by omega)]
        exact put_table_col _ (by omega) _
    have := forRange_error (a := 0) (b := m) (y := 0) (f := fun i R => forRange 0 n (fun j R => do
        let total ← forRange 0 p (fun k t => do
          let x ← get (table m p (extend A)) i k
          let y ← get (table p n (extend B)) k j
          .ok (t + x * y)) 0
        put R i j total) R) (fun _ => zeros n m) (le_refl _) hm (fun x _ hx => by omega) hrow
    rw [this]
    rfl
  · -- there are too few rows
    have := forRange_error (a := 0) (b := m) (y := n) (e := .indexError) (f := fun i R => forRange 0 n (fun j R => do
        let total ← forRange 0 p (fun k t => do
          let x ← get (table m p (extend A)) i k
          let y ← get (table p n (extend B)) k j
          .ok (t + x * y)) 0
        put R i j total) R) (fun i => table n m (fun a b => if a < i ∧ b < n then v a b else 0)) (Nat.zero_le _) h (by
      intro i _ hi
      have h1 : table n m (fun a b => if a < i ∧ b < n then v a b else 0) =
          (fun j => table n m (fun a b => if (a < i ∧ b < n) ∨ (a = i ∧ b < j) then v a b else 0)) 0 :=
        table_congr (fun a b _ _ => by simp)
      rw [h1, forRange_ok (fun j => table n m (fun a b => if (a < i ∧ b < n) ∨ (a = i ∧ b < j) then v a b else 0)) (Nat.zero_le n)]
      · congr 1
        refine table_congr (fun a b ha hb => ?_)
        by_cases e : a < i + 1 ∧ b < n
        · rw [if_pos e, if_pos (by omega)]
        · rw [if_neg e, if_neg (by omega)]
      · intro j _ hj
        rw [dot_ok A B (by omega) hj]
        show put _ i j _ = _
        rw [put_table _ hi (by omega)]
        congr 1
        refine table_congr (fun a b ha hb => ?_)
        rw [upd]
        by_cases e : a = i ∧ b = j
        · rw [if_pos e, if_pos (by omega), e.1, e.2]
        · rw [if_neg e]
          by_cases e' : (a < i ∧ b < n) ∨ (a = i ∧ b < j)
          · rw [if_pos e', if_pos (by omega)]
          · rw [if_neg e', if_neg (by omega)]) (by
      have h1 : table n m (fun a b => if a < n ∧ b < n then v a b else 0) =
          (fun _ => table n m (fun a b => if a < n ∧ b < n then v a b else 0)) 0 := rfl
      rw [h1]
      refine forRange_error (y := 0) (fun _ => table n m (fun a b => if a < n ∧ b < n then v a b else 0)) (le_refl _) hn
        (fun x _ hx => by omega) ?_
      rw [dot_ok A B h hn]
      exact put_table_row _ (by omega) _)
    have h0 : zeros n m = table n m (fun a b => if a < 0 ∧ b < n then v a b else 0) := by
      rw [zeros_eq]; exact table_congr (fun a b _ _ => by simp)
    rw [h0, this]
    rfl

/-- C51: matrices that are not conformable raise a ValueError. -/
theorem C51_mul_raises {m p q n : ℕ} (hm : 0 < m) (hpq : p ≠ q) (A : Matrix (Fin m) (Fin p) ℤ)
    (B : Matrix (Fin q) (Fin n) ℤ) : mul (rowsOf A) (rowsOf B) = .error .valueError := by
  rw [mul, rowsOf_eq A, rowsOf_eq B, nrows_table, ncols_table hm, if_pos hpq]

/-- C51, the missing part for the sum: a larger second operand is truncated, a smaller one raises an IndexError instead of
the ValueError of line 109. -/
theorem C51_add_violation : add [[1, 2], [3, 4]] [[1, 1, 1], [1, 1, 1], [1, 1, 1]] = .ok [[2, 3], [4, 5]] ∧
    add [[1, 2], [3, 4]] [[1, 1]] = .error .indexError := by decide +kernel

theorem eraseIdx_ofFn {α : Type} {n : ℕ} (f : Fin (n + 1) → α) (i : Fin (n + 1)) :
    (List.ofFn f).eraseIdx i.val = List.ofFn (fun k => f (i.succAbove k)) := by
  apply List.ext_getElem
  · rw [List.length_eraseIdx_of_lt (by rw [List.length_ofFn]; exact i.2), List.length_ofFn, List.length_ofFn]; rfl
  · intro k h1 h2
    rw [List.length_ofFn] at h2
    rw [List.getElem_eraseIdx]
    by_cases hk : k < i.val
    · rw [dif_pos hk, List.getElem_ofFn, List.getElem_ofFn,
        Fin.succAbove_of_castSucc_lt i ⟨k, h2⟩ (show k < i.val from hk)]; rfl
    · rw [dif_neg hk, List.getElem_ofFn, List.getElem_ofFn,
        Fin.succAbove_of_le_castSucc i ⟨k, h2⟩ (show i.val ≤ k by omega)]; rfl

/-- C51: `delete_row(i)` leaves out row `i`; two rows are needed, since the result must have a row. -/
theorem C51_delete_row {r c : ℕ} (hr : 0 < r) (A : Matrix (Fin (r + 1)) (Fin c) ℤ) (i : Fin (r + 1)) :
    deleteRow (rowsOf A) i.val = .ok (rowsOf (A.submatrix i.succAbove id)) := by
  rw [deleteRow]
  have : (rowsOf A).eraseIdx i.val = rowsOf (A.submatrix i.succAbove id) := by
    rw [rowsOf, eraseIdx_ofFn]
    rfl
  rw [this, rowsOf_eq, construct_table hr]

/-- C51: `delete_col(j)` leaves out column `j`. -/
theorem C51_delete_col {r c : ℕ} (hr : 0 < r) (A : Matrix (Fin r) (Fin (c + 1)) ℤ) (j : Fin (c + 1)) :
    deleteCol (rowsOf A) j.val = .ok (rowsOf (A.submatrix id j.succAbove)) := by
  rw [deleteCol]
  have : (rowsOf A).map (fun row => row.eraseIdx j.val) = rowsOf (A.submatrix id j.succAbove) := by
    rw [rowsOf, List.map_ofFn]
    congr 1
    funext i
    exact eraseIdx_ofFn _ _
  rw [this, rowsOf_eq, construct_table hr]

/-! ## The determinant -/

theorem lead_extend {n : ℕ} (M : Matrix (Fin n) (Fin n) ℤ) : lead (extend M) n = M.det := by
  rw [lead]
  congr 1
  ext i j
  exact extend_val M i j

/-- The leading principal minor of order `k`. -/
def leadingMinor {n : ℕ} (M : Matrix (Fin n) (Fin n) ℤ) (k : ℕ) (hk : k ≤ n) : ℤ :=
  (M.submatrix (Fin.castLE hk) (Fin.castLE hk)).det

theorem determinant_spec {n : ℕ} (hn : 2 ≤ n) (M : Matrix (Fin n) (Fin n) ℤ) :
    ∃ d m', determinant (rowsOf M) = .ok (d, m') ∧ (d = M.det ∨ d = 0) ∧ ((∀ l, l < n → lead (extend M) l ≠ 0) → d = M.det) := by
  rw [determinant, rowsOf_eq, nrows_table, ncols_table (by omega), if_neg (by simp), ← lead_extend]
  have := detLoop_spec (lead (extend M) n) n 0 (by omega) hn (extend M) (extend M) 1 none (Or.inl rfl)
    (fun i j _ _ _ _ => (minor_zero _ i j).symm) (by rw [lead_zero]; exact one_ne_zero) (fun h => absurd h (by omega)) (one_mul _)
  rw [lead_zero] at this
  exact this

/-- C91: for at least two rows `determinant` never raises, and what it returns is the determinant or zero. -/
theorem C91_determinant_partial {n : ℕ} (hn : 2 ≤ n) (M : Matrix (Fin n) (Fin n) ℤ) :
    ∃ d m', determinant (rowsOf M) = .ok (d, m') ∧ (d = M.det ∨ d = 0) := by
  obtain ⟨d, m', h1, h2, -⟩ := determinant_spec hn M
  exact ⟨d, m', h1, h2⟩

/-- C91: if no leading principal minor of order less than n vanishes, the determinant is returned. -/
theorem C91_determinant_regular {n : ℕ} (hn : 2 ≤ n) (M : Matrix (Fin n) (Fin n) ℤ)
    (h : ∀ k (hk : k < n), leadingMinor M k hk.le ≠ 0) : ∃ m', determinant (rowsOf M) = .ok (M.det, m') := by
  obtain ⟨d, m', h1, -, h2⟩ := determinant_spec hn M
  refine ⟨m', ?_⟩
  rw [h1, h2]
  intro l hl e
  apply h l hl
  rw [← e, lead, leadingMinor]
  congr 1
  ext i j
  exact (extend_val M (Fin.castLE hl.le i) (Fin.castLE hl.le j)).symm

/-- C91: the determinant of a one by one matrix; zero raises an UnboundLocalError. -/
theorem C91_one_by_one (x : ℤ) : determinant [[x]] = if x = 0 then .error .unboundLocalError else .ok (x, [[x]]) := by
  by_cases h : x = 0
  · rw [if_pos h, h]; rfl
  · rw [if_neg h]
    have hg : Rosemary.Matrices.get [[x]] 0 0 = .ok x := rfl
    have : determinant [[x]] = (do
      let pivot ← Rosemary.Matrices.get [[x]] 0 0
      if pivot = 0 then .error .unboundLocalError else do
        let y ← Rosemary.Matrices.get [[x]] 0 0
        .ok (y, [[x]])) := by
      simp [determinant, nrows, ncols, detLoop, hg, h, eliminate, forRange]
      rfl
    rw [this, hg]
    show (if x = 0 then _ else _) = _
    rw [if_neg h]
    rfl

/-- C91: a matrix that is not square raises a ValueError. -/
theorem C91_not_square {r c : ℕ} (hr : 0 < r) (h : r ≠ c) (M : Matrix (Fin r) (Fin c) ℤ) :
    determinant (rowsOf M) = .error .valueError := by
  rw [determinant, rowsOf_eq, nrows_table, ncols_table hr, if_pos h]

/-- C91, the missing part: when the only possible pivot is in the last row, 0 is returned. -/
theorem C91_pivot_violation : ∃ m', determinant [[0, 1], [1, 0]] = .ok (0, m') ∧
    (Matrix.of ![![0, 1], ![1, 0]] : Matrix (Fin 2) (Fin 2) ℤ).det = -1 :=
  ⟨[[0, 1], [1, 0]], by decide +kernel, by rw [Matrix.det_fin_two]; rfl⟩

/-- C91, the missing part: `determinant` changes the matrix; a second call returns something else. -/
theorem C91_mutation_violation : determinant [[2, 0], [0, 3]] = .ok (6, [[2, 0], [0, 6]]) ∧
    determinant [[2, 0], [0, 6]] = .ok (12, [[2, 0], [0, 12]]) := by decide +kernel

example : (determinant [[2, 3, 1], [4, 6, 5], [7, 8, 9]]).map (·.1) = .ok 0 := by decide +kernel
example : (determinant [[2, 3, 1], [4, 1, 5], [7, 8, 9]]).map (·.1) = .ok (-40) := by decide +kernel
example : mul [[1, 2, 3], [4, 5, 6]] [[1, 0], [2, 1], [0, 3]] = .ok [[5, 11], [14, 23]] := by decide +kernel
example : mul [[1, 2]] [[1, 2, 3], [4, 5, 6]] = .error .indexError := by decide +kernel

end Rosemary.Props
