import Verif.Model.Polynomials
import Mathlib.Algebra.Polynomial.Basic
import Mathlib.Algebra.Polynomial.Coeff
import Mathlib.Algebra.Polynomial.Eval.Defs
import Mathlib.Algebra.Polynomial.Derivative
import Mathlib.Algebra.Polynomial.BigOperators
import Mathlib.Algebra.Polynomial.Degree.Lemmas
import Mathlib.Tactic.LinearCombination
import Mathlib.Tactic.Ring

/-!
# Coefficient lists as polynomials
-/

namespace Rosemary.Polys

open Polynomial

theorem getD_ge {l : List Int} {i : Nat} (h : l.length ≤ i) : l.getD i 0 = 0 := by
  rw [List.getD_eq_getElem?_getD, List.getElem?_eq_none h]; rfl

/-- The polynomial with the coefficients `l`, constant term first. -/
noncomputable def toPoly : List Int → ℤ[X]
  | [] => 0
  | c :: l => C c + X * toPoly l

theorem coeff_toPoly (l : List Int) (i : Nat) : (toPoly l).coeff i = l.getD i 0 := by
  induction l generalizing i with
  | nil => simp [toPoly]
  | cons c l ih =>
    cases i with
    | zero => simp [toPoly]
    | succ i => rw [toPoly, coeff_add, coeff_C_succ, coeff_X_mul, ih]; simp

theorem toPoly_ext {l : List Int} {p : ℤ[X]} (h : ∀ i, l.getD i 0 = p.coeff i) : toPoly l = p := by
  ext i
  rw [coeff_toPoly, h]

theorem toPoly_append (a b : List Int) : toPoly (a ++ b) = toPoly a + X ^ a.length * toPoly b := by
  induction a with
  | nil => simp [toPoly]
  | cons c a ih => simp only [List.cons_append, toPoly, ih, List.length_cons]; ring

theorem toPoly_replicate (k : Nat) : toPoly (List.replicate k 0) = 0 := by
  induction k with
  | zero => rfl
  | succ k ih => simp [List.replicate_succ, toPoly, ih]

theorem toPoly_take_drop (l : List Int) (k : Nat) :
    toPoly l = toPoly (l.take k) + X ^ k * toPoly (l.drop k) := by
  apply toPoly_ext
  intro i
  rw [coeff_add, coeff_X_pow_mul', coeff_toPoly]
  by_cases h : k ≤ i
  · rw [if_pos h, coeff_toPoly]
    simp only [List.getD_eq_getElem?_getD, List.getElem?_drop, List.getElem?_take]
    rw [if_neg (by omega), show k + (i - k) = i by omega]
    simp
  · rw [if_neg h]
    simp only [List.getD_eq_getElem?_getD, List.getElem?_take]
    rw [if_pos (by omega)]
    simp

theorem toPoly_modify (l : List Int) (k : Nat) (c : Int) (h : k < l.length) :
    toPoly (l.modify k (fun e => e + c)) = toPoly l + C c * X ^ k := by
  induction l generalizing k with
  | nil => simp at h
  | cons a l ih =>
    cases k with
    | zero => simp [toPoly]; ring
    | succ k =>
      rw [List.modify_succ_cons]
      simp only [toPoly]
      rw [ih k (by simpa using h)]
      ring

theorem toPoly_set (l : List Int) (k : Nat) (c : Int) (h : k < l.length) :
    toPoly (l.set k c) = toPoly l + C (c - l.getD k 0) * X ^ k := by
  induction l generalizing k with
  | nil => simp at h
  | cons a l ih =>
    cases k with
    | zero => simp [toPoly]; ring
    | succ k =>
      rw [List.set_cons_succ]
      simp only [toPoly, List.getD_cons_succ]
      rw [ih k (by simpa using h)]
      ring

theorem toPoly_map_mul (c : Int) (l : List Int) : toPoly (l.map (fun e => c * e)) = C c * toPoly l := by
  induction l with
  | nil => simp [toPoly]
  | cons a l ih => simp only [List.map_cons, toPoly, ih, C_mul]; ring

theorem toPoly_map_neg (l : List Int) : toPoly (l.map (fun e => -e)) = -toPoly l := by
  induction l with
  | nil => simp [toPoly]
  | cons a l ih => simp only [List.map_cons, toPoly, ih, C_neg]; ring

theorem toPoly_map_range (n : Nat) (g : Nat → Int) (p : ℤ[X]) (h : ∀ i, i < n → g i = p.coeff i)
    (h' : ∀ i, n ≤ i → p.coeff i = 0) : toPoly ((List.range n).map g) = p := by
  apply toPoly_ext
  intro i
  rw [List.getD_eq_getElem?_getD, List.getElem?_map]
  by_cases hi : i < n
  · rw [List.getElem?_range hi]; exact h i hi
  · rw [List.getElem?_eq_none (by simp; omega), h' i (by omega)]; rfl

/-! ## Sums and products -/

theorem intoLoop_add (C' : List Int) (i : Nat) (B : List Int) (h : i + B.length ≤ C'.length) :
    toPoly (intoLoop (· + ·) C' i B) = toPoly C' + X ^ i * toPoly B := by
  induction B generalizing C' i with
  | nil => simp [intoLoop, toPoly]
  | cons c B ih =>
    rw [List.length_cons] at h
    rw [intoLoop, ih _ _ (by rw [List.length_modify]; omega), toPoly_modify _ _ _ (by omega), toPoly]
    ring

theorem intoLoop_sub (C' : List Int) (i : Nat) (B : List Int) (h : i + B.length ≤ C'.length) :
    toPoly (intoLoop (· - ·) C' i B) = toPoly C' - X ^ i * toPoly B := by
  induction B generalizing C' i with
  | nil => simp [intoLoop, toPoly]
  | cons c B ih =>
    rw [List.length_cons] at h
    rw [intoLoop, ih _ _ (by rw [List.length_modify]; omega)]
    have : (fun e : Int => e - c) = fun e => e + (-c) := by funext e; ring
    rw [this, toPoly_modify _ _ _ (by omega), toPoly, C_neg]
    ring

theorem toPoly_listAdd (A B : List Int) : toPoly (listAdd A B) = toPoly A + toPoly B := by
  unfold listAdd
  split
  · rw [intoLoop_add _ _ _ (by omega)]; ring
  · rw [intoLoop_add _ _ _ (by omega)]; ring

theorem toPoly_listSubtract (A B : List Int) : toPoly (listSubtract A B) = toPoly A - toPoly B := by
  unfold listSubtract
  split
  · rw [intoLoop_sub _ _ _ (by omega)]; ring
  · rw [intoLoop_add _ _ _ (by rw [List.length_map]; omega), toPoly_map_neg]; ring

theorem length_listSubtract (A B : List Int) :
    (listSubtract A B).length = max A.length B.length := by
  unfold listSubtract
  split
  · rw [length_intoLoop]; omega
  · rw [length_intoLoop, List.length_map]; omega

theorem length_mulRow (P : List Int) (i : Nat) (x : Int) (j : Nat) (N : List Int) :
    (mulRow P i x j N).length = P.length := by
  induction N generalizing P j with
  | nil => rfl
  | cons y N ih => rw [mulRow, ih, List.length_modify]

theorem toPoly_mulRow (P : List Int) (i : Nat) (x : Int) (j : Nat) (N : List Int)
    (h : i + j + N.length ≤ P.length) :
    toPoly (mulRow P i x j N) = toPoly P + C x * X ^ (i + j) * toPoly N := by
  induction N generalizing P j with
  | nil => simp [mulRow, toPoly]
  | cons y N ih =>
    rw [List.length_cons] at h
    rw [mulRow, ih _ _ (by rw [List.length_modify]; omega), toPoly_modify _ _ _ (by omega), toPoly, C_mul]
    ring

theorem length_mulRows (N P : List Int) (i : Nat) (M : List Int) :
    (mulRows N P i M).length = P.length := by
  induction M generalizing P i with
  | nil => rfl
  | cons y N ih => rw [mulRows, ih, length_mulRow]

theorem toPoly_mulRows (N P : List Int) (i : Nat) (M : List Int)
    (h : M ≠ [] → i + M.length + N.length ≤ P.length + 1) :
    toPoly (mulRows N P i M) = toPoly P + X ^ i * toPoly M * toPoly N := by
  induction M generalizing P i with
  | nil => simp [mulRows, toPoly]
  | cons x M ih =>
    have h := h (by simp)
    rw [List.length_cons] at h
    rw [mulRows, ih _ _ (by rw [length_mulRow]; omega), toPoly_mulRow _ _ _ _ _ (by omega), toPoly]
    ring

theorem toPoly_mulClassical (M N : List Int) :
    toPoly (mulClassical M N) = toPoly M * toPoly N := by
  unfold mulClassical
  split
  · rename_i h
    rcases h with h | h <;> rw [List.length_eq_zero_iff] at h <;> subst h <;> simp [toPoly]
  · rename_i h
    rw [toPoly_mulRows _ _ _ _ (by rw [List.length_replicate]; omega), toPoly_replicate]
    ring

theorem length_mulClassical (M N : List Int) (hM : M ≠ []) (hN : N ≠ []) :
    (mulClassical M N).length = M.length + N.length - 1 := by
  unfold mulClassical
  rw [if_neg (by simp [hM, hN]), length_mulRows, List.length_replicate]

theorem toPoly_psMultClassical (M N : List Int) :
    toPoly (psMultClassical M N) = toPoly M * toPoly N := by
  unfold psMultClassical
  by_cases h : M = []
  · subst h; simp [mulRows, toPoly, toPoly_replicate]
  · have : M.length ≠ 0 := by simpa using h
    rw [toPoly_mulRows _ _ _ _ (by rw [List.length_replicate]; omega), toPoly_replicate]
    ring

theorem toPoly_mulKaratsuba (M N : List Int) :
    toPoly (mulKaratsuba M N) = toPoly M * toPoly N := by
  induction hs : M.length + N.length using Nat.strong_induction_on generalizing M N with
  | _ s ih =>
    subst hs
    rw [mulKaratsuba]
    split
    · exact toPoly_mulClassical M N
    · rename_i h
      have hk1 : 15 ≤ max M.length N.length / 2 := by omega
      have hk2 : max M.length N.length / 2 < max M.length N.length := by omega
      have hk3 : max M.length N.length / 2 ≤ max M.length N.length := by omega
      dsimp only
      have ih' : ∀ M' N' : List Int, M'.length + N'.length < M.length + N.length →
          toPoly (mulKaratsuba M' N') = toPoly M' * toPoly N' := fun M' N' h => ih _ h M' N' rfl
      rw [toPoly_listAdd, toPoly_listAdd, toPoly_append, toPoly_append, toPoly_replicate,
        toPoly_replicate, toPoly_listSubtract, toPoly_listSubtract, List.length_replicate,
        List.length_replicate,
        ih' _ _ (by simp only [length_listAdd, List.length_take, List.length_drop]; omega),
        ih' _ _ (by simp only [length_listAdd, List.length_take, List.length_drop]; omega),
        ih' _ _ (by simp only [length_listAdd, List.length_take, List.length_drop]; omega),
        toPoly_listAdd, toPoly_listAdd]
      rw [toPoly_take_drop M (max M.length N.length / 2), toPoly_take_drop N (max M.length N.length / 2)]
      generalize max M.length N.length / 2 = k
      rw [show X ^ (2 * k) = (X ^ k * X ^ k : ℤ[X]) by rw [← pow_add]; congr 1; omega]
      ring

theorem toPoly_zipSum (A B : List Int) : toPoly (zipSum A B) = toPoly A + toPoly B := by
  unfold zipSum
  apply toPoly_map_range
  · intro i _; rw [coeff_add, coeff_toPoly, coeff_toPoly]
  · intro i hi
    rw [coeff_add, coeff_toPoly, coeff_toPoly, getD_ge (by omega),
      getD_ge (by omega)]; rfl

theorem length_zipSum (A B : List Int) : (zipSum A B).length = max A.length B.length := by
  simp [zipSum]

theorem toPoly_zip3 (A B C' : List Int) (f : Int × Int × Int → Int) (p : ℤ[X])
    (h : ∀ i, p.coeff i = f ((toPoly A).coeff i, (toPoly B).coeff i, (toPoly C').coeff i))
    (h0 : f (0, 0, 0) = 0) : toPoly ((zipLongest3 A B C').map f) = p := by
  unfold zipLongest3
  rw [List.map_map]
  apply toPoly_map_range
  · intro i _
    rw [h, coeff_toPoly, coeff_toPoly, coeff_toPoly]; rfl
  · intro i hi
    rw [h, coeff_toPoly, coeff_toPoly, coeff_toPoly, getD_ge (by omega),
      getD_ge (by omega), getD_ge (by omega), h0]

theorem psMultKaratsuba_spec (M N : List Int) (t : Int) (ht : 2 ≤ t) :
    ∃ P, psMultKaratsuba M N t = some P ∧ toPoly P = toPoly M * toPoly N := by
  induction hs : M.length + N.length using Nat.strong_induction_on generalizing M N with
  | _ s ih =>
    subst hs
    rw [psMultKaratsuba.eq_def]
    split
    · exact ⟨_, rfl, toPoly_psMultClassical M N⟩
    · rename_i h
      have hk1 : 1 ≤ max M.length N.length / 2 := by omega
      have hk2 : max M.length N.length / 2 < max M.length N.length := by omega
      obtain ⟨z0, a1, a2⟩ := ih _ (by simp only [List.length_take]; omega)
        (M.take (max M.length N.length / 2)) (N.take (max M.length N.length / 2)) rfl
      obtain ⟨z2, b1, b2⟩ := ih _ (by simp only [List.length_drop]; omega)
        (M.drop (max M.length N.length / 2)) (N.drop (max M.length N.length / 2)) rfl
      obtain ⟨xy, c1, c2⟩ := ih _
        (by simp only [length_zipSum, List.length_take, List.length_drop]; omega)
        (zipSum (M.drop (max M.length N.length / 2)) (M.take (max M.length N.length / 2)))
        (zipSum (N.drop (max M.length N.length / 2)) (N.take (max M.length N.length / 2))) rfl
      dsimp only
      rw [a1, b1, c1]
      refine ⟨_, rfl, ?_⟩
      rw [toPoly_zipSum, toPoly_zipSum] at c2
      have e1 : toPoly ((zipLongest3 xy z2 z0).map (fun e => e.1 - e.2.1 - e.2.2)) =
          toPoly xy - toPoly z2 - toPoly z0 := by
        apply toPoly_zip3
        · intro i; rw [coeff_sub, coeff_sub]
        · rfl
      rw [toPoly_zip3 _ _ _ _ (toPoly (List.replicate (2 * (max M.length N.length / 2)) 0 ++ z2) +
        toPoly (List.replicate (max M.length N.length / 2) 0 ++
          (zipLongest3 xy z2 z0).map (fun e => e.1 - e.2.1 - e.2.2)) + toPoly z0) (by
            intro i; rw [coeff_add, coeff_add]) rfl]
      rw [toPoly_append, toPoly_append, toPoly_replicate, toPoly_replicate, List.length_replicate,
        List.length_replicate, e1, a2, b2, c2]
      rw [toPoly_take_drop M (max M.length N.length / 2), toPoly_take_drop N (max M.length N.length / 2)]
      generalize max M.length N.length / 2 = k
      rw [show X ^ (2 * k) = (X ^ k * X ^ k : ℤ[X]) by rw [← pow_add]; congr 1; omega]
      ring

/-! ## The recurrence for powers -/

theorem sum_map_range (c : Nat) (f : Nat → Int) :
    ((List.range c).map f).sum = ∑ j ∈ Finset.range c, f j := by
  induction c with
  | zero => rfl
  | succ c ih => rw [List.range_succ, List.map_append, List.sum_append, ih, Finset.sum_range_succ]; simp

theorem miller (A : ℤ[X]) (k i : Nat) (hi : 1 ≤ i) :
    ∑ j ∈ Finset.range i, A.coeff (j + 1) * ((k + 1) * (j + 1 : Nat) - i) * (A ^ k).coeff (i - (j + 1)) =
      i * A.coeff 0 * (A ^ k).coeff i := by
  have hD : ∀ (p : ℤ[X]) n, (X * derivative p).coeff n = n * p.coeff n := by
    intro p n
    cases n with
    | zero => simp
    | succ n => rw [coeff_X_mul, coeff_derivative]; push_cast; ring
  have h1 : A * (X * derivative (A ^ k)) = C (k : ℤ) * (X * derivative A * A ^ k) := by
    cases k with
    | zero => simp
    | succ k => rw [derivative_pow]; simp; ring
  have h2 := congrArg (fun p => coeff p i) h1
  rw [coeff_mul, coeff_C_mul, coeff_mul, Finset.Nat.sum_antidiagonal_eq_sum_range_succ_mk,
    Finset.Nat.sum_antidiagonal_eq_sum_range_succ_mk, Finset.mul_sum, Finset.sum_range_succ',
    Finset.sum_range_succ' (n := i)] at h2
  simp only [hD] at h2
  rw [Nat.sub_zero, Nat.cast_zero, zero_mul, zero_mul, mul_zero, add_zero] at h2
  have e : ∑ j ∈ Finset.range i,
      A.coeff (j + 1) * ((k + 1) * (j + 1 : Nat) - i) * (A ^ k).coeff (i - (j + 1)) =
      ∑ j ∈ Finset.range i, (k : ℤ) * (((j + 1 : Nat) : ℤ) * A.coeff (j + 1) * (A ^ k).coeff (i - (j + 1))) -
      ∑ j ∈ Finset.range i, A.coeff (j + 1) * (((i - (j + 1) : Nat) : ℤ) * (A ^ k).coeff (i - (j + 1))) := by
    rw [← Finset.sum_sub_distrib]
    apply Finset.sum_congr rfl
    intro j hj
    rw [Finset.mem_range] at hj
    rw [Nat.cast_sub (by omega)]
    ring
  rw [e, ← h2]
  ring

theorem jcpSum_eq {B P : List Int} {k i top : Nat} (hi : 1 ≤ i) (htop : top ≤ i + 1) (h1 : 1 ≤ top)
    (hB : ∀ j, top ≤ j → j ≤ i → B.getD j 0 = 0)
    (hP : ∀ j, j < i → P.getD j 0 = (toPoly B ^ k).coeff j) :
    jcpSum B P k i top = i * B.getD 0 0 * (toPoly B ^ k).coeff i := by
  have hm := miller (toPoly B) k i hi
  rw [coeff_toPoly] at hm
  rw [← hm]
  unfold jcpSum
  rw [List.range'_eq_map_range, List.map_map, sum_map_range]
  have hle : top - 1 ≤ i := by omega
  rw [← Finset.sum_range_add_sum_Ico _ hle]
  rw [Finset.sum_eq_zero (s := Finset.Ico (top - 1) i), add_zero]
  · apply Finset.sum_congr rfl
    intro j hj
    rw [Finset.mem_range] at hj
    simp only [Function.comp_apply]
    rw [coeff_toPoly, Nat.add_comm 1 j, hP _ (by omega)]
  · intro j hj
    rw [Finset.mem_Ico] at hj
    rw [coeff_toPoly, hB _ (by omega) (by omega)]
    ring

theorem fdiv_exact {a b c : Int} (hb : b ≠ 0) (h : a = b * c) : Int.fdiv a b = c := by
  rw [h, Int.mul_fdiv_cancel_left _ hb]

theorem getD_set {l : List Int} {i j : Nat} {v : Int} (hi : i < l.length) :
    (l.set i v).getD j 0 = if j = i then v else l.getD j 0 := by
  rw [List.getD_eq_getElem?_getD, List.getElem?_set]
  by_cases h : i = j
  · subst h; rw [if_pos rfl, if_pos hi, if_pos rfl]; rfl
  · rw [if_neg h, if_neg (Ne.symm h), List.getD_eq_getElem?_getD]

theorem jcpLoop_spec {B : List Int} {k : Nat} (h0 : B.getD 0 0 ≠ 0) (c i : Nat) (hi : 1 ≤ i)
    (P : List Int) (hl : P.length = i + c)
    (hP : ∀ j, j < i → P.getD j 0 = (toPoly B ^ k).coeff j) :
    ∃ Q, jcpLoop B k (B.getD 0 0) (List.range' i c) P = .ok Q ∧ Q.length = i + c ∧
      ∀ j, j < i + c → Q.getD j 0 = (toPoly B ^ k).coeff j := by
  induction c generalizing i P with
  | zero => exact ⟨P, rfl, hl, hP⟩
  | succ c ih =>
    rw [List.range'_succ, jcpLoop]
    have hne : (i : Int) * B.getD 0 0 ≠ 0 := mul_ne_zero (by omega) h0
    have hB : 1 ≤ B.length := by
      by_contra hc
      exact h0 (getD_ge (by omega))
    rw [if_neg hne, fdiv_exact hne (jcpSum_eq hi (by omega) (by omega)
      (fun j h1 h2 => getD_ge (by omega)) hP)]
    obtain ⟨Q, h1, h2, h3⟩ := ih (i + 1) (by omega) (P.set i ((toPoly B ^ k).coeff i))
      (by rw [List.length_set]; omega) (by
        intro j hj
        rw [getD_set (by omega)]
        split
        · rename_i h; rw [h]
        · exact hP j (by omega))
    exact ⟨Q, h1, by omega, fun j hj => h3 j (by omega)⟩

theorem psPowerLoop_spec {B : List Int} {k : Nat} (h0 : B.getD 0 0 ≠ 0) (c i : Nat) (hi : 1 ≤ i)
    (P : List Int) (hl : P.length = i + c)
    (hP : ∀ j, j < i → P.getD j 0 = (toPoly B ^ k).coeff j) :
    ∃ Q, psPowerLoop B k (B.getD 0 0) (List.range' i c) P = .ok Q ∧ Q.length = i + c ∧
      ∀ j, j < i + c → Q.getD j 0 = (toPoly B ^ k).coeff j := by
  induction c generalizing i P with
  | zero => exact ⟨P, rfl, hl, hP⟩
  | succ c ih =>
    rw [List.range'_succ, psPowerLoop]
    have hne : (i : Int) * B.getD 0 0 ≠ 0 := mul_ne_zero (by omega) h0
    rw [if_neg hne, fdiv_exact hne (jcpSum_eq hi (by omega) (by omega) (fun j h1 h2 => by omega) hP)]
    obtain ⟨Q, h1, h2, h3⟩ := ih (i + 1) (by omega) (P.set i ((toPoly B ^ k).coeff i))
      (by rw [List.length_set]; omega) (by
        intro j hj
        rw [getD_set (by omega)]
        split
        · rename_i h; rw [h]
        · exact hP j (by omega))
    exact ⟨Q, h1, by omega, fun j hj => h3 j (by omega)⟩

theorem coeff_pow_zero (B : List Int) (k : Nat) : (toPoly B ^ k).coeff 0 = B.getD 0 0 ^ k := by
  rw [coeff_zero_eq_eval_zero, eval_pow, ← coeff_zero_eq_eval_zero, coeff_toPoly]

theorem natDegree_toPoly_le (B : List Int) : (toPoly B).natDegree ≤ B.length - 1 := by
  rw [natDegree_le_iff_coeff_eq_zero]
  intro N hN
  rw [coeff_toPoly, getD_ge (by omega)]

theorem lowest_spec (A : List Int) :
    ((∀ a ∈ A, a = 0) ∧ lowest A = .error .indexError) ∨
    ∃ s, lowest A = .ok s ∧ (A.drop s).getD 0 0 ≠ 0 ∧ A.take s = List.replicate s 0 := by
  induction A with
  | nil => left; simp [lowest]
  | cons a A ih =>
    unfold lowest
    by_cases h : a = 0
    · rw [if_pos h]
      rcases ih with ⟨h1, h2⟩ | ⟨s, h1, h2, h3⟩
      · left; rw [h2]
        exact ⟨by intro b hb; rcases List.mem_cons.1 hb with rfl | hb; exact h; exact h1 b hb, rfl⟩
      · right
        refine ⟨s + 1, by rw [h1], by simpa using h2, ?_⟩
        rw [List.take_succ_cons, h3, List.replicate_succ, h]
    · right; rw [if_neg h]; exact ⟨0, rfl, by simpa using h, rfl⟩

theorem powerJcp_spec (A : List Int) (hA : ∃ a ∈ A, a ≠ 0) (k : Nat) :
    ∃ P, powerJcp A k = .ok P ∧ toPoly P = toPoly A ^ k := by
  rcases lowest_spec A with ⟨h1, -⟩ | ⟨s, h1, h2, h3⟩
  · obtain ⟨a, ha, hne⟩ := hA
    exact absurd (h1 a ha) hne
  unfold powerJcp
  rw [h1]
  dsimp only
  generalize hB : A.drop s = B at h2
  have hlen : 1 ≤ B.length := by
    by_contra hc
    exact h2 (getD_ge (by omega))
  obtain ⟨Q, e1, e2, e3⟩ := jcpLoop_spec (k := k) h2 ((B.length - 1) * k) 1 (le_refl _)
    ((List.replicate ((B.length - 1) * k + 1) 0).set 0 (B.getD 0 0 ^ k))
    (by rw [List.length_set, List.length_replicate]; omega)
    (by
      intro j hj
      rw [getD_set (by rw [List.length_replicate]; omega), if_pos (by omega)]
      have : j = 0 := by omega
      rw [this, coeff_pow_zero])
  rw [Nat.add_sub_cancel, e1]
  refine ⟨_, rfl, ?_⟩
  have hQ : toPoly Q = toPoly B ^ k := by
    apply toPoly_ext
    intro j
    by_cases hj : j < 1 + (B.length - 1) * k
    · exact e3 j hj
    · rw [getD_ge (by omega)]
      symm
      apply coeff_eq_zero_of_natDegree_lt
      calc (toPoly B ^ k).natDegree ≤ k * (toPoly B).natDegree := natDegree_pow_le
        _ ≤ k * (B.length - 1) := Nat.mul_le_mul_left _ (natDegree_toPoly_le B)
        _ = (B.length - 1) * k := Nat.mul_comm _ _
        _ < j := by omega
  rw [toPoly_append, toPoly_replicate, List.length_replicate, hQ, toPoly_take_drop A s, h3, hB,
    toPoly_replicate, zero_add, zero_add, mul_pow, ← pow_mul]

/-! ## Inversion -/

theorem psInvertLoop_spec {A : List Int} {a0 : Int} (h0 : A.getD 0 0 = a0) (hu : a0 * a0 = 1) (c i : Nat)
    (hi : 1 ≤ i) (B : List Int) (hl : B.length = i + c)
    (hB : ∀ j, j < i → (toPoly A * toPoly B).coeff j = if j = 0 then 1 else 0)
    (hz : ∀ j, i ≤ j → B.getD j 0 = 0) :
    ∃ Q, psInvertLoop A a0 (List.range' i c) B = Q ∧ Q.length = i + c ∧
      ∀ j, j < i + c → (toPoly A * toPoly Q).coeff j = if j = 0 then 1 else 0 := by
  induction c generalizing i B with
  | zero => exact ⟨B, rfl, hl, hB⟩
  | succ c ih =>
    rw [List.range'_succ, psInvertLoop]
    have hne : a0 ≠ 0 := by rintro rfl; simp at hu
    have hss : ((List.range (i + 1)).map (fun t => A.getD t 0 * B.getD (i - t) 0)).sum =
        (toPoly A * toPoly B).coeff i := by
      rw [sum_map_range, coeff_mul, Finset.Nat.sum_antidiagonal_eq_sum_range_succ_mk]
      apply Finset.sum_congr rfl
      intro t _
      rw [coeff_toPoly, coeff_toPoly]
    have hx : -(toPoly A * toPoly B).coeff i = a0 * (-(toPoly A * toPoly B).coeff i * a0) := by
      linear_combination ((toPoly A * toPoly B).coeff i) * hu
    rw [hss, fdiv_exact hne hx]
    obtain ⟨Q, e1, e2, e3⟩ := ih (i + 1) (by omega) (B.set i (-(toPoly A * toPoly B).coeff i * a0))
      (by rw [List.length_set]; omega)
      (by
        intro j hj
        rw [toPoly_set _ _ _ (by omega), hz i (le_refl _), sub_zero, mul_add, coeff_add,
          ← mul_assoc, coeff_mul_X_pow', coeff_mul_C]
        rw [coeff_toPoly]
        by_cases hji : j = i
        · subst hji
          rw [if_pos (le_refl _), Nat.sub_self, h0, if_neg (by omega)]
          linear_combination (-(toPoly A * toPoly B).coeff j) * hu
        · rw [if_neg (by omega), add_zero, hB j (by omega)])
      (by
        intro j hj
        rw [getD_set (by omega), if_neg (by omega), hz j (by omega)])
    exact ⟨Q, e1, by omega, fun j hj => e3 j (by omega)⟩

theorem psInvert_spec {A : List Int} {a0 : Int} (h0 : A[0]? = some a0) (hu : a0 = 1 ∨ a0 = -1) :
    ∃ Q, psInvert A = .ok Q ∧ Q.length = A.length ∧
      ∀ j, j < A.length → (toPoly A * toPoly Q).coeff j = if j = 0 then 1 else 0 := by
  cases A with
  | nil => simp at h0
  | cons a A =>
    have : a = a0 := by simpa using h0
    subst this
    have hu' : a * a = 1 := by rcases hu with rfl | rfl <;> rfl
    have hne : a ≠ 0 := by rintro rfl; simp at hu'
    have hf : Int.fdiv 1 a = a := fdiv_exact hne hu'.symm
    unfold psInvert
    dsimp only
    rw [if_neg hne, hf]
    obtain ⟨Q, e1, e2, e3⟩ := psInvertLoop_spec (A := a :: A) (a0 := a) rfl hu' A.length 1 (le_refl _)
      ((List.replicate (a :: A).length 0).set 0 a)
      (by rw [List.length_set, List.length_replicate, List.length_cons]; omega)
      (by
        intro j hj
        have : j = 0 := by omega
        subst this
        rw [mul_coeff_zero, coeff_toPoly, coeff_toPoly, getD_set (by simp), if_pos rfl, if_pos rfl]
        simpa using hu')
      (by
        intro j hj
        rw [getD_set (by simp), if_neg (by omega)]
        simp only [List.getD_eq_getElem?_getD, List.getElem?_replicate]
        split <;> rfl)
    rw [List.length_cons, Nat.add_sub_cancel]
    rw [List.length_cons] at e1
    exact ⟨Q, by rw [e1], by omega, fun j hj => e3 j (by omega)⟩

/-! ## The class -/

theorem toPoly_dropLast {l : List Int} (h : l.getD (l.length - 1) 0 = 0) :
    toPoly l.dropLast = toPoly l := by
  apply toPoly_ext
  intro i
  rw [coeff_toPoly, List.getD_eq_getElem?_getD, List.getElem?_dropLast]
  by_cases hi : i < l.length - 1
  · rw [if_pos hi, List.getD_eq_getElem?_getD]
  · rw [if_neg hi]
    by_cases he : i = l.length - 1
    · rw [he, h]; rfl
    · rw [getD_ge (by omega)]; rfl

theorem toPoly_popZeros (l : List Int) : toPoly (popZeros l) = toPoly l := by
  induction l using popZeros.induct with
  | case1 l h ih => rw [popZeros, dif_pos h, ih, toPoly_dropLast h.2]
  | case2 l h => rw [popZeros, dif_neg h]

theorem toPoly_mk (l : List Int) : toPoly (mk l) = toPoly l := by
  unfold mk
  split
  · rename_i h
    rw [List.length_eq_zero_iff] at h
    subst h; simp [toPoly]
  · exact toPoly_popZeros l

/-- A list the constructor can produce: nonempty, and the last entry is nonzero unless it is the only
one. -/
def Reduced (l : List Int) : Prop := l ≠ [] ∧ (l.length > 1 → l.getD (l.length - 1) 0 ≠ 0)

theorem reduced_popZeros (l : List Int) (h : l ≠ []) : Reduced (popZeros l) := by
  induction l using popZeros.induct with
  | case1 l h' ih =>
    rw [popZeros, dif_pos h']
    apply ih
    intro hc
    have := congrArg List.length hc
    rw [List.length_dropLast] at this
    simp at this
    omega
  | case2 l h' =>
    rw [popZeros, dif_neg h']
    refine ⟨h, fun hl hc => h' ⟨hl, hc⟩⟩

theorem reduced_mk (l : List Int) : Reduced (mk l) := by
  unfold mk
  split
  · exact ⟨by simp, by simp⟩
  · rename_i h
    exact reduced_popZeros l (by intro hc; subst hc; simp at h)

/-- Reduced lists are determined by their polynomial. -/
theorem Reduced.inj {l l' : List Int} (h : Reduced l) (h' : Reduced l') (he : toPoly l = toPoly l') :
    l = l' := by
  have hc : ∀ i, l.getD i 0 = l'.getD i 0 := by
    intro i
    rw [← coeff_toPoly, ← coeff_toPoly, he]
  have key : ∀ {a b : List Int}, Reduced a → Reduced b → (∀ i, a.getD i 0 = b.getD i 0) →
      a.length ≤ b.length := by
    intro a b ha hb hab
    by_contra hlt
    have hb1 : 1 ≤ b.length := by
      have := hb.1
      rcases b with _ | _ <;> simp at *
    have := ha.2 (by omega)
    rw [hab, getD_ge (by omega)] at this
    exact this rfl
  have hl : l.length = l'.length := le_antisymm (key h h' hc) (key h' h (fun i => (hc i).symm))
  apply List.ext_getElem? 
  intro i
  by_cases hi : i < l.length
  · have := hc i
    rw [List.getD_eq_getElem?_getD, List.getD_eq_getElem?_getD, List.getElem?_eq_getElem hi,
      List.getElem?_eq_getElem (by omega : i < l'.length)] at this
    rw [List.getElem?_eq_getElem hi, List.getElem?_eq_getElem (by omega : i < l'.length)]
    exact congrArg some this
  · rw [List.getElem?_eq_none (by omega), List.getElem?_eq_none (by omega)]

theorem call_eq_eval (f : List Int) (x : Int) : call f x = (toPoly f).eval x := by
  unfold call
  rw [List.foldl_reverse]
  induction f with
  | nil => simp [toPoly]
  | cons c f ih => rw [List.foldr_cons, ih, toPoly, eval_add, eval_C, eval_mul, eval_X]; ring

theorem toPoly_mul (f g : List Int) : toPoly (mul f g) = toPoly f * toPoly g := by
  unfold mul
  rw [toPoly_mk, toPoly_mulKaratsuba]

theorem powerBinaryLoop_spec (z y : List Int) (k : Nat) (hk : 1 ≤ k) :
    toPoly (powerBinaryLoop z y k) = toPoly z ^ k * toPoly y := by
  induction k using Nat.strong_induction_on generalizing z y with
  | _ k ih =>
    rw [powerBinaryLoop]
    by_cases h : k / 2 = 0
    · rw [dif_pos h]
      have : k = 1 := by omega
      subst this
      rw [if_pos (by rfl), toPoly_mul]; ring
    · rw [dif_neg h, ih (k / 2) (by omega) _ _ (by omega), toPoly_mul]
      rw [← pow_two, ← pow_mul]
      by_cases ho : k % 2 = 1
      · rw [if_pos ho, toPoly_mul, ← mul_assoc, ← pow_succ]
        congr 2; omega
      · rw [if_neg ho]
        congr 2; omega

theorem powerBinary_spec (f : List Int) (k : Nat) : toPoly (powerBinary f k) = toPoly f ^ k := by
  unfold powerBinary
  have h1 : toPoly (mk [1]) = 1 := by rw [toPoly_mk]; simp [toPoly]
  split
  · rename_i h; rw [h1, h, pow_zero]
  · rw [powerBinaryLoop_spec _ _ _ (by omega), h1, mul_one]

/-! ## Division -/

theorem length_pseudoRow (v : List Int) (n k : Nat) (js : List Nat) (u : List Int) :
    (pseudoRow v n k js u).length = u.length := by
  induction js generalizing u with
  | nil => rfl
  | cons j js ih =>
    rw [pseudoRow]
    split <;> rw [ih, List.length_set]

theorem pseudoRow_spec (v : List Int) (n k c : Nat) (hc : c ≤ n + k) (u : List Int)
    (hl : n + k < u.length) (i : Nat) :
    (pseudoRow v n k (List.range c).reverse u).getD i 0 =
      if i < c then
        (if i < k then v.getD n 0 * u.getD i 0
         else v.getD n 0 * u.getD i 0 - u.getD (n + k) 0 * v.getD (i - k) 0)
      else u.getD i 0 := by
  induction c generalizing u with
  | zero => simp [pseudoRow]
  | succ c ih =>
    rw [List.range_succ, List.reverse_append, List.reverse_singleton, List.singleton_append, pseudoRow]
    split
    · rename_i hck
      rw [ih (by omega) _ (by rw [List.length_set]; omega), getD_set (by omega), getD_set (by omega),
        if_neg (show n + k ≠ c by omega)]
      by_cases h1 : i < c
      · rw [if_pos h1, if_pos (show i < c + 1 by omega), if_neg (show i ≠ c by omega)]
      · rw [if_neg h1]
        by_cases h2 : i = c
        · subst h2
          rw [if_pos rfl, if_pos (show i < i + 1 by omega), if_pos hck]
        · rw [if_neg h2, if_neg (by omega)]
    · rename_i hck
      rw [ih (by omega) _ (by rw [List.length_set]; omega), getD_set (by omega), getD_set (by omega),
        if_neg (show n + k ≠ c by omega)]
      by_cases h1 : i < c
      · rw [if_pos h1, if_pos (show i < c + 1 by omega), if_neg (show i ≠ c by omega)]
      · rw [if_neg h1]
        by_cases h2 : i = c
        · subst h2
          rw [if_pos rfl, if_pos (show i < i + 1 by omega), if_neg hck]
        · rw [if_neg h2, if_neg (by omega)]

theorem getD_take (l : List Int) (t i : Nat) : (l.take t).getD i 0 = if i < t then l.getD i 0 else 0 := by
  rw [List.getD_eq_getElem?_getD, List.getElem?_take]
  split
  · rw [List.getD_eq_getElem?_getD]
  · rfl

theorem pseudoRow_poly {v : List Int} {n : Nat} (hv : v.length = n + 1) (k : Nat) (u : List Int)
    (hl : n + k < u.length) :
    toPoly ((pseudoRow v n k (List.range (n + k)).reverse u).take (n + k)) =
      C (v.getD n 0) * toPoly (u.take (n + k + 1)) - C (u.getD (n + k) 0) * X ^ k * toPoly v := by
  apply toPoly_ext
  intro i
  rw [getD_take, pseudoRow_spec v n k _ (le_refl _) u hl, coeff_sub, coeff_C_mul, mul_assoc, coeff_C_mul,
    coeff_X_pow_mul', coeff_toPoly, coeff_toPoly, getD_take]
  by_cases h1 : i < n + k
  · rw [if_pos h1, if_pos h1, if_pos (show i < n + k + 1 by omega)]
    by_cases h2 : i < k
    · rw [if_pos h2, if_neg (show ¬ k ≤ i by omega)]; ring
    · rw [if_neg h2, if_pos (show k ≤ i by omega)]
  · rw [if_neg h1]
    by_cases h2 : i = n + k
    · subst h2
      rw [if_pos (by omega), if_pos (by omega), Nat.add_sub_cancel]; ring
    · rw [if_neg (by omega), if_pos (by omega), getD_ge (l := v) (i := i - k) (by omega)]; ring

theorem pseudoLoop_spec {v : List Int} {n : Nat} (hv : v.length = n + 1) (c : Nat) (q u : List Int)
    (hq : c ≤ q.length) (hq0 : ∀ j, j < c → q.getD j 0 = 0) (hu : n + c ≤ u.length) :
    toPoly ((pseudoLoop v n (List.range c).reverse q u).2.take n) +
      (toPoly (pseudoLoop v n (List.range c).reverse q u).1 - toPoly q) * toPoly v =
      C (v.getD n 0 ^ c) * toPoly (u.take (n + c)) := by
  induction c generalizing q u with
  | zero => simp [pseudoLoop]
  | succ c ih =>
    rw [List.range_succ, List.reverse_append, List.reverse_singleton, List.singleton_append, pseudoLoop]
    have h := ih (q.set c (u.getD (n + c) 0 * v.getD n 0 ^ c))
      (pseudoRow v n c (List.range (n + c)).reverse u) (by rw [List.length_set]; omega)
      (by
        intro j hj
        rw [getD_set (by omega), if_neg (by omega), hq0 j (by omega)])
      (by rw [length_pseudoRow]; omega)
    rw [pseudoRow_poly hv c u (by omega), toPoly_set _ _ _ (by omega), hq0 c (by omega), sub_zero] at h
    rw [C_mul] at h
    rw [pow_succ, C_mul, ← add_assoc]
    linear_combination h

theorem toPoly_quoRow (qi : Int) (i : Nat) (r : List Int) (j : Nat) (b : List Int)
    (h : i + j + b.length ≤ r.length) :
    toPoly (quoRow qi i r j b) = toPoly r - C qi * X ^ (i + j) * toPoly b := by
  induction b generalizing r j with
  | nil => simp [quoRow, toPoly]
  | cons y b ih =>
    rw [List.length_cons] at h
    have : (fun e : Int => e - qi * y) = fun e => e + (-(qi * y)) := by funext e; ring
    rw [quoRow, ih _ _ (by rw [List.length_modify]; omega), this, toPoly_modify _ _ _ (by omega), toPoly,
      C_neg, C_mul]
    ring

theorem length_quoRow (qi : Int) (i : Nat) (r : List Int) (j : Nat) (b : List Int) :
    (quoRow qi i r j b).length = r.length := by
  induction b generalizing r j with
  | nil => rfl
  | cons y b ih => rw [quoRow, ih, List.length_modify]

theorem quoLoop_spec (b : List Int) (hb : 1 ≤ b.length) (lc : Int) (c : Nat) (q r : List Int)
    (hq : c ≤ q.length) (hq0 : ∀ j, j < c → q.getD j 0 = 0) (hr : c + b.length ≤ r.length + 1) :
    toPoly (quoLoop b lc (List.range c).reverse q r).2 +
      (toPoly (quoLoop b lc (List.range c).reverse q r).1 - toPoly q) * toPoly b = toPoly r := by
  induction c generalizing q r with
  | zero => simp [quoLoop]
  | succ c ih =>
    rw [List.range_succ, List.reverse_append, List.reverse_singleton, List.singleton_append, quoLoop]
    have h := ih (q.set c (Int.fdiv (r.getD (c + b.length - 1) 0) lc))
      (quoRow (Int.fdiv (r.getD (c + b.length - 1) 0) lc) c r 0 b) (by rw [List.length_set]; omega)
      (by
        intro j hj
        rw [getD_set (by omega), if_neg (by omega), hq0 j (by omega)])
      (by rw [length_quoRow]; omega)
    rw [toPoly_quoRow _ _ _ _ _ (by omega), toPoly_set _ _ _ (by omega), hq0 c (by omega), sub_zero,
      Nat.add_zero] at h
    linear_combination h

/-- When an exact quotient with remainder exists, the loop finds it. -/
theorem quoLoop_exact (b : List Int) (hb : 1 ≤ b.length) (hlc : b.getD (b.length - 1) 0 ≠ 0)
    (R0 : ℤ[X]) (hR : ∀ j, b.length - 1 ≤ j → R0.coeff j = 0) (c : Nat) (q r : List Int) (Q0 : ℤ[X])
    (hQ : ∀ j, c ≤ j → Q0.coeff j = 0) (he : toPoly r = Q0 * toPoly b + R0)
    (hq : c ≤ q.length) (hq0 : ∀ j, j < c → q.getD j 0 = 0) (hr : c + b.length ≤ r.length + 1) :
    toPoly (quoLoop b (b.getD (b.length - 1) 0) (List.range c).reverse q r).2 = R0 ∧
      toPoly (quoLoop b (b.getD (b.length - 1) 0) (List.range c).reverse q r).1 = toPoly q + Q0 := by
  induction c generalizing q r Q0 with
  | zero =>
    have : Q0 = 0 := by ext j; rw [hQ j (by omega)]; simp
    subst this
    rw [List.range_zero, List.reverse_nil, quoLoop]
    exact ⟨by rw [he]; ring, by ring⟩
  | succ c ih =>
    rw [List.range_succ, List.reverse_append, List.reverse_singleton, List.singleton_append, quoLoop]
    have hco : r.getD (c + b.length - 1) 0 = b.getD (b.length - 1) 0 * Q0.coeff c := by
      rw [← coeff_toPoly, he, coeff_add, hR _ (by omega), add_zero,
        show c + b.length - 1 = c + (b.length - 1) by omega,
        coeff_mul_add_eq_of_natDegree_le _ (natDegree_toPoly_le b), coeff_toPoly, mul_comm]
      rw [natDegree_le_iff_coeff_eq_zero]
      intro N hN
      exact hQ N (by omega)
    rw [fdiv_exact hlc hco]
    have h := ih (q.set c (Q0.coeff c)) (quoRow (Q0.coeff c) c r 0 b) (Q0 - C (Q0.coeff c) * X ^ c)
      (by
        intro j hj
        rw [coeff_sub, coeff_C_mul, coeff_X_pow]
        by_cases hjc : j = c
        · subst hjc; simp
        · rw [if_neg hjc, hQ j (by omega)]; simp)
      (by
        rw [toPoly_quoRow _ _ _ _ _ (by omega), he, Nat.add_zero]; ring)
      (by rw [List.length_set]; omega)
      (by
        intro j hj
        rw [getD_set (by omega), if_neg (by omega), hq0 j (by omega)])
      (by rw [length_quoRow]; omega)
    refine ⟨h.1, ?_⟩
    rw [h.2, toPoly_set _ _ _ (by omega), hq0 c (by omega), sub_zero]
    ring

end Rosemary.Polys
