import Verif.Model.Matrices
import Mathlib.LinearAlgebra.Matrix.SchurComplement
import Mathlib.LinearAlgebra.Matrix.Determinant.Basic
import Mathlib.LinearAlgebra.Matrix.NonsingularInverse
import Mathlib.Algebra.BigOperators.Fin
import Mathlib.Tactic.Linarith
import Mathlib.Tactic.FieldSimp
import Mathlib.Tactic.Ring

/-!
# Lists of rows, and the identity behind the elimination without fractions
-/

namespace Rosemary.Matrices

open BigOperators

/-- The list of rows with the given entries. -/
def table (r c : ℕ) (g : ℕ → ℕ → ℤ) : Entries := List.ofFn (fun i : Fin r => List.ofFn (fun j : Fin c => g i.val j.val))

theorem table_congr {r c : ℕ} {g h : ℕ → ℕ → ℤ} (e : ∀ i j, i < r → j < c → g i j = h i j) : table r c g = table r c h := by
  unfold table
  congr 1
  funext i
  congr 1
  funext j
  exact e i j i.2 j.2

theorem table_length (r c : ℕ) (g : ℕ → ℕ → ℤ) : (table r c g).length = r := by simp [table]

theorem get_table {r c : ℕ} (g : ℕ → ℕ → ℤ) {i j : ℕ} (hi : i < r) (hj : j < c) : get (table r c g) i j = .ok (g i j) := by
  simp [get, table, hi, hj]

theorem get_table_row {r c : ℕ} (g : ℕ → ℕ → ℤ) {i j : ℕ} (hi : ¬ i < r) : get (table r c g) i j = .error .indexError := by
  simp [get, table, hi]

/-- One entry changed. -/
def upd (g : ℕ → ℕ → ℤ) (i j : ℕ) (x : ℤ) : ℕ → ℕ → ℤ := fun a b => if a = i ∧ b = j then x else g a b

theorem put_table {r c : ℕ} (g : ℕ → ℕ → ℤ) {i j : ℕ} (hi : i < r) (hj : j < c) (x : ℤ) :
    put (table r c g) i j x = .ok (table r c (upd g i j x)) := by
  have h1 : (table r c g)[i]? = some (List.ofFn (fun b : Fin c => g i b.val)) := by simp [table, hi]
  rw [put, h1]
  simp only [List.length_ofFn, hj, if_true]
  congr 1
  apply List.ext_getElem
  · simp [table]
  · intro a h2 h3
    have ha : a < r := by simpa [table] using h3
    rw [List.getElem_set]
    split_ifs with e
    · subst e
      apply List.ext_getElem
      · simp [table]
      · intro b h4 h5
        rw [List.getElem_set]
        simp only [table, List.getElem_ofFn, upd]
        split_ifs with e1 e2 e3
        · rfl
        · exact absurd ⟨trivial, e1.symm⟩ e2
        · exact absurd e3.2.symm e1
        · rfl
    · simp only [table, List.getElem_ofFn, upd]
      congr 1
      funext b
      rw [if_neg (fun h => e h.1.symm)]

theorem put_table_row {r c : ℕ} (g : ℕ → ℕ → ℤ) {i j : ℕ} (hi : ¬ i < r) (x : ℤ) : put (table r c g) i j x = .error .indexError := by
  simp [put, table, hi]

theorem put_table_col {r c : ℕ} (g : ℕ → ℕ → ℤ) {i j : ℕ} (hj : ¬ j < c) (x : ℤ) : put (table r c g) i j x = .error .indexError := by
  by_cases hi : i < r
  · simp [put, table, hi, hj]
  · exact put_table_row g hi x

theorem zeros_eq (r c : ℕ) : zeros r c = table r c (fun _ _ => 0) := by
  rw [zeros, table, List.ofFn_const, List.ofFn_const]

/-- A loop whose states are known. -/
theorem forRange_ok {σ : Type} {a b : ℕ} {f : ℕ → σ → Except PyErr σ} (S : ℕ → σ) (hab : a ≤ b)
    (h : ∀ x, a ≤ x → x < b → f x (S x) = .ok (S (x + 1))) : forRange a b f (S a) = .ok (S b) := by
  rw [forRange]
  obtain ⟨m, rfl⟩ := Nat.exists_eq_add_of_le hab
  rw [Nat.add_sub_cancel_left]
  clear hab
  induction m generalizing a with
  | zero => rfl
  | succ m ih =>
    rw [List.range'_succ, List.foldlM_cons, h a (le_refl _) (by omega)]
    have := ih (a := a + 1) (fun x h1 h2 => h x (by omega) (by omega))
    rw [show a + (m + 1) = a + 1 + m by omega]
    exact this

/-- A loop that raises in the round `y`. -/
theorem forRange_error {σ : Type} {a b y : ℕ} {f : ℕ → σ → Except PyErr σ} {e : PyErr} (S : ℕ → σ) (hay : a ≤ y) (hyb : y < b)
    (h : ∀ x, a ≤ x → x < y → f x (S x) = .ok (S (x + 1))) (hy : f y (S y) = .error e) : forRange a b f (S a) = .error e := by
  have h1 := forRange_ok S hay h
  rw [forRange] at h1 ⊢
  rw [show b - a = (y - a) + ((b - y - 1) + 1) by omega, ← List.range'_append_1, List.foldlM_append, h1]
  rw [show a + (y - a) = y by omega, List.range'_succ]
  show List.foldlM _ _ _ = _
  rw [List.foldlM_cons, hy]
  rfl

/-- Filling a zero matrix. -/
theorem fill_ok {r c : ℕ} {step : ℕ → ℕ → Entries → Except PyErr Entries} (v : ℕ → ℕ → ℤ)
    (h : ∀ i j R, i < r → j < c → step i j R = put R i j (v i j)) :
    forRange 0 r (fun i R => forRange 0 c (fun j R => step i j R) R) (zeros r c) = .ok (table r c v) := by
  have h0 : zeros r c = (fun i => table r c (fun a b => if a < i then v a b else 0)) 0 := by
    rw [zeros_eq]
    exact table_congr (fun a b _ _ => by simp)
  rw [h0, forRange_ok (fun i => table r c (fun a b => if a < i then v a b else 0)) (Nat.zero_le r)]
  · congr 1
    exact table_congr (fun a b ha _ => if_pos ha)
  · intro i _ hi
    have h1 : table r c (fun a b => if a < i then v a b else 0) =
        (fun j => table r c (fun a b => if a < i ∨ (a = i ∧ b < j) then v a b else 0)) 0 :=
      table_congr (fun a b _ _ => by simp)
    rw [h1, forRange_ok (fun j => table r c (fun a b => if a < i ∨ (a = i ∧ b < j) then v a b else 0)) (Nat.zero_le c)]
    · congr 1
      refine table_congr (fun a b ha hb => ?_)
      by_cases e : a < i + 1
      · rw [if_pos e, if_pos (by omega)]
      · rw [if_neg e, if_neg (by omega)]
    · intro j _ hj
      rw [h i j _ hi hj, put_table _ hi hj]
      congr 1
      refine table_congr (fun a b ha hb => ?_)
      rw [upd]
      by_cases e : a = i ∧ b = j
      · rw [if_pos e, if_pos (by omega), e.1, e.2]
      · rw [if_neg e]
        by_cases e' : a < i ∨ (a = i ∧ b < j)
        · rw [if_pos e', if_pos (by omega)]
        · rw [if_neg e', if_neg (by omega)]

theorem nrows_table (r c : ℕ) (g : ℕ → ℕ → ℤ) : nrows (table r c g) = r := table_length r c g

theorem ncols_table {r c : ℕ} (hr : 0 < r) (g : ℕ → ℕ → ℤ) : ncols (table r c g) = c := by
  obtain ⟨r, rfl⟩ := Nat.exists_eq_succ_of_ne_zero hr.ne'
  simp [ncols, table, List.ofFn_succ]

theorem construct_table {r c : ℕ} (hr : 0 < r) (g : ℕ → ℕ → ℤ) : construct (table r c g) = .ok (table r c g) := by
  obtain ⟨r, rfl⟩ := Nat.exists_eq_succ_of_ne_zero hr.ne'
  simp [construct, init, table, List.ofFn_succ, Except.map]

/-! ### The bordered minors -/

/-- Rows (or columns) `0, ..., k - 1, i`. -/
def rowIx (k i : ℕ) (x : Fin (k + 1)) : ℕ := if x.val < k then x.val else i

/-- The bordered minor. -/
def minor (g : ℕ → ℕ → ℤ) (k i j : ℕ) : ℤ := Matrix.det (Matrix.of fun x y : Fin (k + 1) => g (rowIx k i x) (rowIx k j y))

/-- The leading principal minor. -/
def lead (g : ℕ → ℕ → ℤ) (k : ℕ) : ℤ := Matrix.det (Matrix.of fun x y : Fin k => g x.val y.val)

theorem minor_self (g : ℕ → ℕ → ℤ) (k : ℕ) : minor g k k k = lead g (k + 1) := by
  rw [minor, lead]
  congr 1
  ext x y
  have : ∀ x : Fin (k + 1), rowIx k k x = x.val := fun x => by
    rw [rowIx]; split_ifs with h
    · rfl
    · omega
  simp only [Matrix.of_apply, this]

theorem minor_zero (g : ℕ → ℕ → ℤ) (i j : ℕ) : minor g 0 i j = g i j := by
  rw [minor, Matrix.det_fin_one]
  simp [rowIx]

theorem lead_zero (g : ℕ → ℕ → ℤ) : lead g 0 = 1 := by rw [lead, Matrix.det_fin_zero]

/-- The minors with any number of additional rows are minors of the Schur complement. -/
theorem schur (g : ℕ → ℕ → ℤ) (k : ℕ) (hk : lead g k ≠ 0) : ∃ s : ℕ → ℕ → ℚ, ∀ (t : ℕ) (r c : Fin t → ℕ),
    ((Matrix.det (Matrix.of fun x y : Fin k ⊕ Fin t => g (Sum.elim Fin.val r x) (Sum.elim Fin.val c y)) : ℤ) : ℚ) =
      (lead g k : ℚ) * Matrix.det (Matrix.of fun a b : Fin t => s (r a) (c b)) := by
  let A : Matrix (Fin k) (Fin k) ℚ := Matrix.of fun x y => (g x.val y.val : ℚ)
  have hdet : A.det = (lead g k : ℚ) := by
    rw [lead, Int.cast_det]
    rfl
  have hu : IsUnit A.det := by
    rw [hdet]
    exact IsUnit.mk0 _ (by exact_mod_cast hk)
  letI := Matrix.invertibleOfIsUnitDet A hu
  refine ⟨fun i j => (g i j : ℚ) - ∑ x : Fin k, ∑ y : Fin k, (g i x.val : ℚ) * (⅟A) x y * (g y.val j : ℚ), fun t r c => ?_⟩
  rw [Int.cast_det]
  have e : (Matrix.of fun x y : Fin k ⊕ Fin t => g (Sum.elim Fin.val r x) (Sum.elim Fin.val c y)).map (fun z : ℤ => (z : ℚ)) =
      Matrix.fromBlocks A (Matrix.of fun x b => (g x.val (c b) : ℚ)) (Matrix.of fun a y => (g (r a) y.val : ℚ))
        (Matrix.of fun a b => (g (r a) (c b) : ℚ)) := by
    ext x y
    rcases x with x | x <;> rcases y with y | y <;> rfl
  rw [e, Matrix.det_fromBlocks₁₁, hdet]
  congr 2
  ext a b
  simp only [Matrix.sub_apply, Matrix.of_apply, Matrix.mul_apply, Finset.sum_mul]
  rw [Finset.sum_comm]

theorem minor_eq (g : ℕ → ℕ → ℤ) (k i j : ℕ) : minor g k i j =
    Matrix.det (Matrix.of fun x y : Fin k ⊕ Fin 1 => g (Sum.elim Fin.val (fun _ => i) x) (Sum.elim Fin.val (fun _ => j) y)) := by
  rw [minor, ← Matrix.det_submatrix_equiv_self (finSumFinEquiv : Fin k ⊕ Fin 1 ≃ Fin (k + 1))]
  congr 1
  have : ∀ (i : ℕ) (x : Fin k ⊕ Fin 1), rowIx k i (finSumFinEquiv x) = Sum.elim Fin.val (fun _ => i) x := by
    intro i x
    rcases x with x | x
    · simp [rowIx]
    · simp [rowIx]
  ext x y
  simp only [Matrix.submatrix_apply, Matrix.of_apply, this]

theorem minor_succ_eq (g : ℕ → ℕ → ℤ) (k i j : ℕ) : minor g (k + 1) i j =
    Matrix.det (Matrix.of fun x y : Fin k ⊕ Fin 2 => g (Sum.elim Fin.val ![k, i] x) (Sum.elim Fin.val ![k, j] y)) := by
  rw [minor, ← Matrix.det_submatrix_equiv_self (finSumFinEquiv : Fin k ⊕ Fin 2 ≃ Fin (k + 2))]
  congr 1
  have : ∀ (i : ℕ) (x : Fin k ⊕ Fin 2), rowIx (k + 1) i (finSumFinEquiv (m := k) (n := 2) x : Fin (k + 2)) = Sum.elim Fin.val ![k, i] x := by
    intro i x
    rcases x with x | x
    · have h : (finSumFinEquiv (m := k) (n := 2) (Sum.inl x) : Fin (k + 2)).val = x.val := by simp
      rw [rowIx]
      split_ifs with h'
      · exact h
      · rw [h] at h'
        omega
    · fin_cases x
      · simp [rowIx]
      · simp [rowIx]
  ext x y
  simp only [Matrix.submatrix_apply, Matrix.of_apply, this]

/-- The identity behind the exact division. -/
theorem bareiss (g : ℕ → ℕ → ℤ) (k i j : ℕ) (hk : lead g k ≠ 0) :
    lead g k * minor g (k + 1) i j = minor g k k k * minor g k i j - minor g k i k * minor g k k j := by
  obtain ⟨s, hs⟩ := schur g k hk
  have h1 : ∀ i j, ((minor g k i j : ℤ) : ℚ) = lead g k * s i j := by
    intro i j
    rw [minor_eq, hs 1 (fun _ => i) (fun _ => j), Matrix.det_fin_one]
    rfl
  have h2 : ((minor g (k + 1) i j : ℤ) : ℚ) = lead g k * (s k k * s i j - s k j * s i k) := by
    rw [minor_succ_eq, hs 2 ![k, i] ![k, j], Matrix.det_fin_two]
    rfl
  have : ((lead g k * minor g (k + 1) i j : ℤ) : ℚ) = ((minor g k k k * minor g k i j - minor g k i k * minor g k k j : ℤ) : ℚ) := by
    push_cast
    rw [h1, h1, h1, h1, h2]
    ring
  exact_mod_cast this

/-- Two rows exchanged. -/
def swapRows (g : ℕ → ℕ → ℤ) (i k : ℕ) : ℕ → ℕ → ℤ := fun a b => g (Equiv.swap i k a) b

theorem minor_swap {g : ℕ → ℕ → ℤ} {i k : ℕ} (hik : k ≤ i) {a b : ℕ} (ha : k ≤ a) :
    minor (swapRows g i k) k a b = minor g k (Equiv.swap i k a) b := by
  rw [minor, minor]
  congr 1
  ext x y
  simp only [Matrix.of_apply, swapRows]
  congr 1
  rw [rowIx, rowIx]
  split_ifs with h
  · rw [Equiv.swap_apply_of_ne_of_ne (by omega) (by omega)]
  · rfl

theorem lead_swap {g : ℕ → ℕ → ℤ} {i k : ℕ} (hik : k ≤ i) : lead (swapRows g i k) k = lead g k := by
  rw [lead, lead]
  congr 1
  ext x y
  simp only [Matrix.of_apply, swapRows]
  rw [Equiv.swap_apply_of_ne_of_ne (by omega) (by omega)]

theorem lead_swap_full {g : ℕ → ℕ → ℤ} {i k n : ℕ} (hik : k < i) (hi : i < n) : lead (swapRows g i k) n = - lead g n := by
  rw [lead, lead]
  have e : (Matrix.of fun x y : Fin n => swapRows g i k x.val y.val) =
      (Matrix.of fun x y : Fin n => g x.val y.val).submatrix (Equiv.swap (⟨i, hi⟩ : Fin n) ⟨k, by omega⟩) id := by
    ext x y
    simp only [Matrix.of_apply, Matrix.submatrix_apply, swapRows, id]
    congr 1
    rw [Equiv.swap_apply_def, Equiv.swap_apply_def]
    simp only [Fin.ext_iff]
    split_ifs <;> rfl
  rw [e, Matrix.det_permute, Equiv.Perm.sign_swap (by intro h; rw [Fin.mk.injEq] at h; omega)]
  simp

/-! ### The loop -/

theorem findRow_spec {n : ℕ} (g : ℕ → ℕ → ℤ) {k : ℕ} (hk : k < n) (a m : ℕ) (ham : a + m = n) (i0 : Option ℕ) :
    ∃ i, findRow (table n n g) k (List.range' a m) i0 = .ok i ∧
      ((∃ i', i = some i' ∧ a ≤ i' ∧ i' < n ∧ g i' k ≠ 0) ∨ (0 < m ∧ i = some (n - 1)) ∨ (m = 0 ∧ i = i0)) := by
  induction m generalizing a i0 with
  | zero => exact ⟨i0, rfl, Or.inr (Or.inr ⟨rfl, rfl⟩)⟩
  | succ m ih =>
    rw [List.range'_succ, findRow, get_table g (by omega) hk]
    by_cases h : g a k ≠ 0
    · exact ⟨some a, by show (if _ then _ else _) = _; rw [if_pos h], Or.inl ⟨a, rfl, le_refl _, by omega, h⟩⟩
    · obtain ⟨i, h1, h2⟩ := ih (a + 1) (by omega) (some a)
      refine ⟨i, by show (if _ then _ else _) = _; rw [if_neg h]; exact h1, ?_⟩
      rcases h2 with ⟨i', k1, k2, k3⟩ | ⟨k1, k2⟩ | ⟨k1, k2⟩
      · exact Or.inl ⟨i', k1, by omega, k3⟩
      · exact Or.inr (Or.inl ⟨by omega, k2⟩)
      · refine Or.inr (Or.inl ⟨by omega, ?_⟩)
        rw [k2]; congr 1; omega

theorem exchange_spec {n : ℕ} (g : ℕ → ℕ → ℤ) {i k : ℕ} (hik : k < i) (hi : i < n) :
    exchange n i k (table n n g) = .ok (table n n (fun a b => if k ≤ b then swapRows g i k a b else g a b)) := by
  have h0 : table n n g = (fun j => table n n (fun a b => if k ≤ b ∧ b < j then swapRows g i k a b else g a b)) k :=
    table_congr (fun a b _ _ => by rw [if_neg (by omega)])
  rw [exchange, h0, forRange_ok (fun j => table n n (fun a b => if k ≤ b ∧ b < j then swapRows g i k a b else g a b)) (by omega)]
  · congr 1
    refine table_congr (fun a b _ hb => ?_)
    by_cases h : k ≤ b
    · rw [if_pos h, if_pos ⟨h, hb⟩]
    · rw [if_neg h, if_neg (fun e => h e.1)]
  · intro j hkj hj
    rw [get_table _ (by omega) hj, get_table _ hi hj]
    show (put _ i j _).bind _ = _
    rw [put_table _ hi hj]
    show put _ k j _ = _
    rw [put_table _ (by omega) hj]
    congr 1
    refine table_congr (fun a b _ _ => ?_)
    simp only [upd, swapRows]
    rw [if_neg (show ¬ (k ≤ j ∧ j < j) by omega), if_neg (show ¬ (k ≤ j ∧ j < j) by omega)]
    by_cases hb : b = j
    · subst hb
      rw [if_neg (show ¬ (k ≤ b ∧ b < b) by omega), if_pos (show k ≤ b ∧ b < b + 1 by omega)]
      by_cases ha : a = k
      · subst ha
        rw [if_pos ⟨rfl, rfl⟩, Equiv.swap_apply_right]
      · rw [if_neg (fun e => ha e.1)]
        by_cases ha' : a = i
        · subst ha'
          rw [if_pos ⟨rfl, rfl⟩, Equiv.swap_apply_left]
        · rw [if_neg (fun e => ha' e.1), Equiv.swap_apply_of_ne_of_ne ha' ha]
    · rw [if_neg (fun e => hb e.2), if_neg (fun e => hb e.2)]
      by_cases h : k ≤ b ∧ b < j
      · rw [if_pos h, if_pos (by omega)]
      · rw [if_neg h, if_neg (by omega)]

theorem eliminate_spec {n : ℕ} (g : ℕ → ℕ → ℤ) {k : ℕ} (hk : k < n) (pivot den : ℤ) (hden : den ≠ 0) :
    eliminate n k pivot den (table n n g) = .ok (table n n (fun a b =>
      if k < a ∧ k < b then (pivot * g a b - g a k * g k b).fdiv den else g a b)) := by
  set v : ℕ → ℕ → ℤ := fun a b => (pivot * g a b - g a k * g k b).fdiv den with hv
  have h0 : table n n g = (fun i => table n n (fun a b => if (k < a ∧ k < b) ∧ a < i then v a b else g a b)) (k + 1) :=
    table_congr (fun a b _ _ => by rw [if_neg (by omega)])
  rw [eliminate, h0, forRange_ok (fun i => table n n (fun a b => if (k < a ∧ k < b) ∧ a < i then v a b else g a b)) (by omega)]
  · congr 1
    refine table_congr (fun a b ha hb => ?_)
    by_cases h : k < a ∧ k < b
    · rw [if_pos h, if_pos ⟨h, ha⟩]
    · rw [if_neg h, if_neg (fun e => h e.1)]
  · intro i hki hi
    have h1 : table n n (fun a b => if (k < a ∧ k < b) ∧ a < i then v a b else g a b) =
        (fun j => table n n (fun a b => if (k < a ∧ k < b) ∧ (a < i ∨ (a = i ∧ b < j)) then v a b else g a b)) (k + 1) := by
      refine table_congr (fun a b ha hb => ?_)
      by_cases h : (k < a ∧ k < b) ∧ a < i
      · rw [if_pos h, if_pos (by omega)]
      · rw [if_neg h, if_neg (by omega)]
    rw [h1, forRange_ok (fun j => table n n (fun a b => if (k < a ∧ k < b) ∧ (a < i ∨ (a = i ∧ b < j)) then v a b else g a b)) (by omega)]
    · congr 1
      refine table_congr (fun a b ha hb => ?_)
      by_cases h : (k < a ∧ k < b) ∧ a < i + 1
      · rw [if_pos h, if_pos (by omega)]
      · rw [if_neg h, if_neg (by omega)]
    · intro j hkj hj
      rw [get_table _ hi hj, get_table _ hi (by omega), get_table _ (by omega) hj]
      show (if den = 0 then _ else put _ i j _) = _
      rw [if_neg hden, put_table _ hi hj]
      congr 1
      refine table_congr (fun a b ha hb => ?_)
      rw [upd]
      by_cases e : a = i ∧ b = j
      · rw [if_pos e, if_neg (show ¬ ((k < i ∧ k < j) ∧ (i < i ∨ (i = i ∧ j < j))) by omega),
          if_neg (show ¬ ((k < i ∧ k < k) ∧ (i < i ∨ (i = i ∧ k < j))) by omega),
          if_neg (show ¬ ((k < k ∧ k < j) ∧ (k < i ∨ (k = i ∧ j < j))) by omega),
          if_pos (show (k < a ∧ k < b) ∧ (a < i ∨ (a = i ∧ b < j + 1)) by omega), e.1, e.2]
      · rw [if_neg e]
        by_cases e' : (k < a ∧ k < b) ∧ (a < i ∨ (a = i ∧ b < j))
        · rw [if_pos e', if_pos (by omega)]
        · rw [if_neg e', if_neg (by omega)]

/-- One round with a nonzero pivot. -/
theorem round_spec {n k : ℕ} (hk : k < n) {g h : ℕ → ℕ → ℤ} (hh : ∀ i j, k ≤ i → i < n → k ≤ j → j < n → h i j = minor g k i j)
    (hl : lead g k ≠ 0) (hp : h k k ≠ 0) :
    ∃ h', eliminate n k (h k k) (lead g k) (table n n h) = .ok (table n n h') ∧
      (∀ i j, k + 1 ≤ i → i < n → k + 1 ≤ j → j < n → h' i j = minor g (k + 1) i j) ∧ h' k k = lead g (k + 1) ∧
      lead g (k + 1) = h k k := by
  have hkk : lead g (k + 1) = h k k := by rw [hh k k (le_refl _) hk (le_refl _) hk, minor_self]
  refine ⟨_, eliminate_spec h hk (h k k) (lead g k) hl, fun i j hi hi' hj hj' => ?_, ?_, hkk⟩
  · rw [if_pos ⟨by omega, by omega⟩, hh k k (le_refl _) hk (le_refl _) hk, hh i j (by omega) hi' (by omega) hj',
      hh i k (by omega) hi' (le_refl _) hk, hh k j (le_refl _) hk (by omega) hj', ← bareiss g k i j hl]
    exact Int.mul_fdiv_cancel_left _ hl
  · rw [if_neg (by omega), hkk]

/-- The loop returns the determinant or zero; with nonzero leading minors it returns the determinant. -/
theorem detLoop_spec {n : ℕ} (D : ℤ) (rem k : ℕ) (hrem : rem + k = n) (hn : 2 ≤ n) (g h : ℕ → ℕ → ℤ) (sign : ℤ)
    (i0 : Option ℕ) (hi0 : k = 0 ∨ i0 = some (n - 1))
    (hh : ∀ i j, k ≤ i → i < n → k ≤ j → j < n → h i j = minor g k i j) (hl : lead g k ≠ 0)
    (hlast : 0 < k → h (k - 1) (k - 1) = lead g k) (hD : sign * lead g n = D) :
    ∃ d m', detLoop n rem k (table n n h) (lead g k) sign i0 = .ok (d, m') ∧ (d = D ∨ d = 0) ∧
      ((∀ l, l < n → lead g l ≠ 0) → d = D) := by
  induction rem generalizing k g h sign i0 with
  | zero =>
    obtain rfl : k = n := by omega
    rw [detLoop, get_table h (by omega) (by omega)]
    refine ⟨sign * h (k - 1) (k - 1), table k k h, rfl, Or.inl ?_, fun _ => ?_⟩ <;> rw [hlast (by omega), hD]
  | succ rem ih =>
    have hk : k < n := by omega
    rw [detLoop, get_table h hk hk]
    show ∃ d m', (if h k k = 0 then _ else _) = _ ∧ _
    have hafter : ∀ i0, (k + 1 = 0 ∨ afterLoop n k i0 = some (n - 1)) ∨ k + 1 = n := by
      intro i0
      by_cases e : k + 1 < n
      · exact Or.inl (Or.inr (by rw [afterLoop, if_pos e]))
      · exact Or.inr (by omega)
    by_cases hp : h k k = 0
    · rw [if_pos hp]
      have hkk : lead g (k + 1) = 0 := by rw [← hp, hh k k (le_refl _) hk (le_refl _) hk, minor_self]
      have habs : (∀ l, l < n → lead g l ≠ 0) → k + 1 = n := by
        intro hall
        by_contra hc
        exact hall (k + 1) (by omega) hkk
      obtain ⟨i, h1, h2⟩ := findRow_spec h hk (k + 1) (n - (k + 1)) (by omega) i0
      rw [h1]
      have hzero : ∃ d m', (.ok ((0 : ℤ), table n n h) : Except PyErr (ℤ × Entries)) = .ok (d, m') ∧ (d = D ∨ d = 0) ∧
          ((∀ l, l < n → lead g l ≠ 0) → d = D) := by
        refine ⟨0, table n n h, rfl, Or.inr rfl, fun hall => ?_⟩
        rw [← habs hall, hkk, mul_zero] at hD
        exact hD
      have hstop : i = some (n - 1) ∨ ∃ i', i = some i' ∧ k < i' ∧ i' < n ∧ i' ≠ n - 1 ∧ h i' k ≠ 0 := by
        rcases h2 with ⟨i', e, k1, k2, k3⟩ | ⟨-, e⟩ | ⟨e0, e⟩
        · by_cases e' : i' = n - 1
          · exact Or.inl (by rw [e, e'])
          · exact Or.inr ⟨i', e, by omega, k2, e', k3⟩
        · exact Or.inl e
        · rcases hi0 with h0 | h0
          · omega
          · exact Or.inl (e.trans h0)
      rcases hstop with e | ⟨i', e, k1, k2, k3, k4⟩
      · subst e
        show ∃ d m', (if n - 1 = n - 1 then _ else _) = _ ∧ _
        rw [if_pos rfl]
        exact hzero
      · subst e
        show ∃ d m', (if i' = n - 1 then _ else _) = _ ∧ _
        rw [if_neg k3, exchange_spec h k1 k2]
        show ∃ d m', ((get (table n n _) k k).bind _) = _ ∧ _
        rw [get_table _ hk hk]
        set hs : ℕ → ℕ → ℤ := fun a b => if k ≤ b then swapRows h i' k a b else h a b with hhs
        have hl' : lead (swapRows g i' k) k = lead g k := lead_swap (by omega)
        have hpk : hs k k = h i' k := by
          rw [hhs]; dsimp only
          rw [if_pos (le_refl _), swapRows, Equiv.swap_apply_right]
        obtain ⟨h', e1, e2, e3, e4⟩ := round_spec (g := swapRows g i' k) (h := hs) hk (by
          intro i j hi hi'' hj hj'
          rw [minor_swap (by omega) hi, hhs]
          dsimp only
          rw [if_pos hj, swapRows]
          refine hh _ j ?_ ?_ hj hj'
          · rw [Equiv.swap_apply_def]; split_ifs <;> omega
          · rw [Equiv.swap_apply_def]; split_ifs <;> omega) (by rw [hl']; exact hl) (by rw [hpk]; exact k4)
        show ∃ d m', ((eliminate n k (hs k k) (lead g k) (table n n hs)).bind _) = _ ∧ _
        rw [← hl', e1]
        show ∃ d m', detLoop n rem (k + 1) (table n n h') (hs k k) (-sign) _ = _ ∧ _
        rw [← e4]
        have hstep := ih (k + 1) (by omega) (swapRows g i' k) h' (-sign) (afterLoop n k (some i'))
        have hD' : -sign * lead (swapRows g i' k) n = D := by rw [lead_swap_full k1 k2, ← hD]; ring
        have hl1 : lead (swapRows g i' k) (k + 1) ≠ 0 := by rw [e4, hpk]; exact k4
        obtain ⟨d, m', q1, q2, -⟩ := hstep (by
          by_cases e : k + 1 < n
          · exact Or.inr (by rw [afterLoop, if_pos e])
          · omega) e2 hl1 (fun _ => by rw [Nat.add_sub_cancel]; exact e3) hD'
        refine ⟨d, m', q1, q2, fun hall => ?_⟩
        have := habs hall
        omega
    · rw [if_neg hp]
      obtain ⟨h', e1, e2, e3, e4⟩ := round_spec hk hh hl hp
      rw [e1]
      show ∃ d m', detLoop n rem (k + 1) (table n n h') (h k k) sign _ = _ ∧ _
      rw [← e4]
      have hl1 : lead g (k + 1) ≠ 0 := by rw [e4]; exact hp
      by_cases e : k + 1 < n
      · exact ih (k + 1) (by omega) g h' sign (afterLoop n k i0) (Or.inr (by rw [afterLoop, if_pos e])) e2 hl1
          (fun _ => by rw [Nat.add_sub_cancel]; exact e3) hD
      · obtain rfl : rem = 0 := by omega
        have ekn : k + 1 = n := by omega
        rw [detLoop, get_table h' (by omega) (by omega)]
        have : h' (n - 1) (n - 1) = lead g n := by rw [← ekn, Nat.add_sub_cancel]; exact e3
        refine ⟨sign * h' (n - 1) (n - 1), table n n h', rfl, Or.inl ?_, fun _ => ?_⟩ <;> rw [this, hD]

end Rosemary.Matrices
