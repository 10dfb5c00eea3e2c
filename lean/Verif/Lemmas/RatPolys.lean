import Verif.Model.RatPolys
import Mathlib.Algebra.Polynomial.Basic
import Mathlib.Algebra.Polynomial.Coeff
import Mathlib.Algebra.Polynomial.Eval.Defs
import Mathlib.Algebra.Polynomial.Derivative
import Mathlib.Algebra.Polynomial.BigOperators
import Mathlib.Algebra.Polynomial.Degree.Lemmas
import Mathlib.Tactic.LinearCombination
import Mathlib.Tactic.Ring

/-!
# Coefficient lists as polynomials
-/

namespace Rosemary.RatPolys

open Polynomial

theorem getD_ge {l : List ℚ} {i : Nat} (h : l.length ≤ i) : l.getD i 0 = 0 := by
  rw [List.getD_eq_getElem?_getD, List.getElem?_eq_none h]; rfl

/-- The polynomial with the coefficients `l`, constant term first. -/
noncomputable def toPoly : List ℚ → ℚ[X]
  | [] => 0
  | c :: l => C c + X * toPoly l

theorem coeff_toPoly (l : List ℚ) (i : Nat) : (toPoly l).coeff i = l.getD i 0 := by
  induction l generalizing i with
  | nil => simp [toPoly]
  | cons c l ih =>
    cases i with
    | zero => simp [toPoly]
    | succ i => rw [toPoly, coeff_add, coeff_C_succ, coeff_X_mul, ih]; simp

theorem toPoly_ext {l : List ℚ} {p : ℚ[X]} (h : ∀ i, l.getD i 0 = p.coeff i) : toPoly l = p := by
  ext i
  rw [coeff_toPoly, h]

theorem toPoly_append (a b : List ℚ) : toPoly (a ++ b) = toPoly a + X ^ a.length * toPoly b := by
  induction a with
  | nil => simp [toPoly]
  | cons c a ih => simp only [List.cons_append, toPoly, ih, List.length_cons]; ring

theorem toPoly_replicate (k : Nat) : toPoly (List.replicate k 0) = 0 := by
  induction k with
  | zero => rfl
  | succ k ih => simp [List.replicate_succ, toPoly, ih]

theorem toPoly_take_drop (l : List ℚ) (k : Nat) :
    toPoly l = toPoly (l.take k) + X ^ k * toPoly (l.drop k) := by
  apply toPoly_ext
  intro i
  rw [coeff_add, coeff_X_pow_mul', coeff_toPoly]
  by_cases h : k ≤ i
  · rw [if_pos h, coeff_toPoly]
    simp only [List.getD_eq_getElem?_getD, List.getElem?_drop, List.getElem?_take]
    rw [if_neg (by omega), show k + (i - k) = i by omega]
    simp
  · rw [if_neg h]
    simp only [List.getD_eq_getElem?_getD, List.getElem?_take]
    rw [if_pos (by omega)]
    simp

theorem toPoly_modify (l : List ℚ) (k : Nat) (c : ℚ) (h : k < l.length) :
    toPoly (l.modify k (fun e => e + c)) = toPoly l + C c * X ^ k := by
  induction l generalizing k with
  | nil => simp at h
  | cons a l ih =>
    cases k with
    | zero => simp [toPoly]; ring
    | succ k =>
      rw [List.modify_succ_cons]
      simp only [toPoly]
      rw [ih k (by simpa using h)]
      ring

theorem toPoly_set (l : List ℚ) (k : Nat) (c : ℚ) (h : k < l.length) :
    toPoly (l.set k c) = toPoly l + C (c - l.getD k 0) * X ^ k := by
  induction l generalizing k with
  | nil => simp at h
  | cons a l ih =>
    cases k with
    | zero => simp [toPoly]; ring
    | succ k =>
      rw [List.set_cons_succ]
      simp only [toPoly, List.getD_cons_succ]
      rw [ih k (by simpa using h)]
      ring

theorem toPoly_map_mul (c : ℚ) (l : List ℚ) : toPoly (l.map (fun e => c * e)) = C c * toPoly l := by
  induction l with
  | nil => simp [toPoly]
  | cons a l ih => simp only [List.map_cons, toPoly, ih, C_mul]; ring

theorem toPoly_map_neg (l : List ℚ) : toPoly (l.map (fun e => -e)) = -toPoly l := by
  induction l with
  | nil => simp [toPoly]
  | cons a l ih => simp only [List.map_cons, toPoly, ih, C_neg]; ring

theorem toPoly_map_range (n : Nat) (g : Nat → ℚ) (p : ℚ[X]) (h : ∀ i, i < n → g i = p.coeff i)
    (h' : ∀ i, n ≤ i → p.coeff i = 0) : toPoly ((List.range n).map g) = p := by
  apply toPoly_ext
  intro i
  rw [List.getD_eq_getElem?_getD, List.getElem?_map]
  by_cases hi : i < n
  · rw [List.getElem?_range hi]; exact h i hi
  · rw [List.getElem?_eq_none (by simp; omega), h' i (by omega)]; rfl

/-! ## Sums and products -/

theorem intoLoop_add (C' : List ℚ) (i : Nat) (B : List ℚ) (h : i + B.length ≤ C'.length) :
    toPoly (intoLoop (· + ·) C' i B) = toPoly C' + X ^ i * toPoly B := by
  induction B generalizing C' i with
  | nil => simp [intoLoop, toPoly]
  | cons c B ih =>
    rw [List.length_cons] at h
    rw [intoLoop, ih _ _ (by rw [List.length_modify]; omega), toPoly_modify _ _ _ (by omega), toPoly]
    ring

theorem intoLoop_sub (C' : List ℚ) (i : Nat) (B : List ℚ) (h : i + B.length ≤ C'.length) :
    toPoly (intoLoop (· - ·) C' i B) = toPoly C' - X ^ i * toPoly B := by
  induction B generalizing C' i with
  | nil => simp [intoLoop, toPoly]
  | cons c B ih =>
    rw [List.length_cons] at h
    rw [intoLoop, ih _ _ (by rw [List.length_modify]; omega)]
    have : (fun e : ℚ => e - c) = fun e => e + (-c) := by funext e; ring
    rw [this, toPoly_modify _ _ _ (by omega), toPoly, C_neg]
    ring

theorem toPoly_listAdd (A B : List ℚ) : toPoly (listAdd A B) = toPoly A + toPoly B := by
  unfold listAdd
  split
  · rw [intoLoop_add _ _ _ (by omega)]; ring
  · rw [intoLoop_add _ _ _ (by omega)]; ring

theorem toPoly_listSubtract (A B : List ℚ) : toPoly (listSubtract A B) = toPoly A - toPoly B := by
  unfold listSubtract
  split
  · rw [intoLoop_sub _ _ _ (by omega)]; ring
  · rw [intoLoop_add _ _ _ (by rw [List.length_map]; omega), toPoly_map_neg]; ring

theorem length_listSubtract (A B : List ℚ) :
    (listSubtract A B).length = max A.length B.length := by
  unfold listSubtract
  split
  · rw [length_intoLoop]; omega
  · rw [length_intoLoop, List.length_map]; omega

theorem length_mulRow (P : List ℚ) (i : Nat) (x : ℚ) (j : Nat) (N : List ℚ) :
    (mulRow P i x j N).length = P.length := by
  induction N generalizing P j with
  | nil => rfl
  | cons y N ih => rw [mulRow, ih, List.length_modify]

theorem toPoly_mulRow (P : List ℚ) (i : Nat) (x : ℚ) (j : Nat) (N : List ℚ)
    (h : i + j + N.length ≤ P.length) :
    toPoly (mulRow P i x j N) = toPoly P + C x * X ^ (i + j) * toPoly N := by
  induction N generalizing P j with
  | nil => simp [mulRow, toPoly]
  | cons y N ih =>
    rw [List.length_cons] at h
    rw [mulRow, ih _ _ (by rw [List.length_modify]; omega), toPoly_modify _ _ _ (by omega), toPoly, C_mul]
    ring

theorem length_mulRows (N P : List ℚ) (i : Nat) (M : List ℚ) :
    (mulRows N P i M).length = P.length := by
  induction M generalizing P i with
  | nil => rfl
  | cons y N ih => rw [mulRows, ih, length_mulRow]

theorem toPoly_mulRows (N P : List ℚ) (i : Nat) (M : List ℚ)
    (h : M ≠ [] → i + M.length + N.length ≤ P.length + 1) :
    toPoly (mulRows N P i M) = toPoly P + X ^ i * toPoly M * toPoly N := by
  induction M generalizing P i with
  | nil => simp [mulRows, toPoly]
  | cons x M ih =>
    have h := h (by simp)
    rw [List.length_cons] at h
    rw [mulRows, ih _ _ (by rw [length_mulRow]; omega), toPoly_mulRow _ _ _ _ _ (by omega), toPoly]
    ring

theorem toPoly_mulClassical (M N : List ℚ) :
    toPoly (mulClassical M N) = toPoly M * toPoly N := by
  unfold mulClassical
  split
  · rename_i h
    rcases h with h | h <;> rw [List.length_eq_zero_iff] at h <;> subst h <;> simp [toPoly]
  · rename_i h
    rw [toPoly_mulRows _ _ _ _ (by rw [List.length_replicate]; omega), toPoly_replicate]
    ring

theorem length_mulClassical (M N : List ℚ) (hM : M ≠ []) (hN : N ≠ []) :
    (mulClassical M N).length = M.length + N.length - 1 := by
  unfold mulClassical
  rw [if_neg (by simp [hM, hN]), length_mulRows, List.length_replicate]

theorem toPoly_mulKaratsuba (M N : List ℚ) :
    toPoly (mulKaratsuba M N) = toPoly M * toPoly N := by
  induction hs : M.length + N.length using Nat.strong_induction_on generalizing M N with
  | _ s ih =>
    subst hs
    rw [mulKaratsuba]
    split
    · exact toPoly_mulClassical M N
    · rename_i h
      have hk1 : 15 ≤ max M.length N.length / 2 := by omega
      have hk2 : max M.length N.length / 2 < max M.length N.length := by omega
      have hk3 : max M.length N.length / 2 ≤ max M.length N.length := by omega
      dsimp only
      have ih' : ∀ M' N' : List ℚ, M'.length + N'.length < M.length + N.length →
          toPoly (mulKaratsuba M' N') = toPoly M' * toPoly N' := fun M' N' h => ih _ h M' N' rfl
      rw [toPoly_listAdd, toPoly_listAdd, toPoly_append, toPoly_append, toPoly_replicate,
        toPoly_replicate, toPoly_listSubtract, toPoly_listSubtract, List.length_replicate,
        List.length_replicate,
        ih' _ _ (by simp only [length_listAdd, List.length_take, List.length_drop]; omega),
        ih' _ _ (by simp only [length_listAdd, List.length_take, List.length_drop]; omega),
        ih' _ _ (by simp only [length_listAdd, List.length_take, List.length_drop]; omega),
        toPoly_listAdd, toPoly_listAdd]
      rw [toPoly_take_drop M (max M.length N.length / 2), toPoly_take_drop N (max M.length N.length / 2)]
      generalize max M.length N.length / 2 = k
      rw [show X ^ (2 * k) = (X ^ k * X ^ k : ℚ[X]) by rw [← pow_add]; congr 1; omega]
      ring

/-! ## The recurrence for powers -/

theorem sum_map_range (c : Nat) (f : Nat → ℚ) :
    ((List.range c).map f).sum = ∑ j ∈ Finset.range c, f j := by
  induction c with
  | zero => rfl
  | succ c ih => rw [List.range_succ, List.map_append, List.sum_append, ih, Finset.sum_range_succ]; simp

theorem miller (A : ℚ[X]) (k i : Nat) (hi : 1 ≤ i) :
    ∑ j ∈ Finset.range i, A.coeff (j + 1) * ((k + 1) * (j + 1 : Nat) - i) * (A ^ k).coeff (i - (j + 1)) =
      i * A.coeff 0 * (A ^ k).coeff i := by
  have hD : ∀ (p : ℚ[X]) n, (X * derivative p).coeff n = n * p.coeff n := by
    intro p n
    cases n with
    | zero => simp
    | succ n => rw [coeff_X_mul, coeff_derivative]; push_cast; ring
  have h1 : A * (X * derivative (A ^ k)) = C (k : ℚ) * (X * derivative A * A ^ k) := by
    cases k with
    | zero => simp
    | succ k => rw [derivative_pow]; simp; ring
  have h2 := congrArg (fun p => coeff p i) h1
  rw [coeff_mul, coeff_C_mul, coeff_mul, Finset.Nat.sum_antidiagonal_eq_sum_range_succ_mk,
    Finset.Nat.sum_antidiagonal_eq_sum_range_succ_mk, Finset.mul_sum, Finset.sum_range_succ',
    Finset.sum_range_succ' (n := i)] at h2
  simp only [hD] at h2
  rw [Nat.sub_zero, Nat.cast_zero, zero_mul, zero_mul, mul_zero, add_zero] at h2
  have e : ∑ j ∈ Finset.range i,
      A.coeff (j + 1) * ((k + 1) * (j + 1 : Nat) - i) * (A ^ k).coeff (i - (j + 1)) =
      ∑ j ∈ Finset.range i, (k : ℚ) * (((j + 1 : Nat) : ℚ) * A.coeff (j + 1) * (A ^ k).coeff (i - (j + 1))) -
      ∑ j ∈ Finset.range i, A.coeff (j + 1) * (((i - (j + 1) : Nat) : ℚ) * (A ^ k).coeff (i - (j + 1))) := by
    rw [← Finset.sum_sub_distrib]
    apply Finset.sum_congr rfl
    intro j hj
    rw [Finset.mem_range] at hj
    rw [Nat.cast_sub (by omega)]
    ring
  rw [e, ← h2]
  ring

theorem jcpSum_eq {B P : List ℚ} {k i top : Nat} (hi : 1 ≤ i) (htop : top ≤ i + 1) (h1 : 1 ≤ top)
    (hB : ∀ j, top ≤ j → j ≤ i → B.getD j 0 = 0)
    (hP : ∀ j, j < i → P.getD j 0 = (toPoly B ^ k).coeff j) :
    jcpSum B P k i top = i * B.getD 0 0 * (toPoly B ^ k).coeff i := by
  have hm := miller (toPoly B) k i hi
  rw [coeff_toPoly] at hm
  rw [← hm]
  unfold jcpSum
  rw [List.range'_eq_map_range, List.map_map, sum_map_range]
  have hle : top - 1 ≤ i := by omega
  rw [← Finset.sum_range_add_sum_Ico _ hle]
  rw [Finset.sum_eq_zero (s := Finset.Ico (top - 1) i), add_zero]
  · apply Finset.sum_congr rfl
    intro j hj
    rw [Finset.mem_range] at hj
    simp only [Function.comp_apply]
    rw [coeff_toPoly, Nat.add_comm 1 j, hP _ (by omega)]
  · intro j hj
    rw [Finset.mem_Ico] at hj
    rw [coeff_toPoly, hB _ (by omega) (by omega)]
    ring

/-- A rational number that is an integer. -/
def Whole (x : ℚ) : Prop := ∃ z : ℤ, x = z

theorem whole_floorDiv (a b : ℚ) : Whole (floorDiv a b) := ⟨⌊a / b⌋, rfl⟩

theorem whole_zero : Whole 0 := ⟨0, by simp⟩

theorem floorDiv_exact {a b c : ℚ} (hb : b ≠ 0) (hc : Whole c) (h : a = b * c) : floorDiv a b = c := by
  obtain ⟨z, rfl⟩ := hc
  rw [h, floorDiv, mul_div_cancel_left₀ _ hb, Int.floor_intCast]

theorem getD_set {l : List ℚ} {i j : Nat} {v : ℚ} (hi : i < l.length) :
    (l.set i v).getD j 0 = if j = i then v else l.getD j 0 := by
  rw [List.getD_eq_getElem?_getD, List.getElem?_set]
  by_cases h : i = j
  · subst h; rw [if_pos rfl, if_pos hi, if_pos rfl]; rfl
  · rw [if_neg h, if_neg (Ne.symm h), List.getD_eq_getElem?_getD]

theorem jcpLoop_spec {B : List ℚ} {k : Nat} (h0 : B.getD 0 0 ≠ 0) (c i : Nat) (hi : 1 ≤ i)
    (P : List ℚ) (hl : P.length = i + c)
    (hz : ∀ j, 1 ≤ j → Whole ((toPoly B ^ k).coeff j))
    (hP : ∀ j, j < i → P.getD j 0 = (toPoly B ^ k).coeff j) :
    ∃ Q, jcpLoop B k (B.getD 0 0) (List.range' i c) P = .ok Q ∧ Q.length = i + c ∧
      ∀ j, j < i + c → Q.getD j 0 = (toPoly B ^ k).coeff j := by
  induction c generalizing i P with
  | zero => exact ⟨P, rfl, hl, hP⟩
  | succ c ih =>
    rw [List.range'_succ, jcpLoop]
    have hne : (i : ℚ) * B.getD 0 0 ≠ 0 := mul_ne_zero (by
      rw [Nat.cast_ne_zero]; omega) h0
    have hB : 1 ≤ B.length := by
      by_contra hc
      exact h0 (getD_ge (by omega))
    rw [if_neg hne, floorDiv_exact hne (hz i hi) (jcpSum_eq hi (by omega) (by omega)
      (fun j h1 h2 => getD_ge (by omega)) hP)]
    obtain ⟨Q, h1, h2, h3⟩ := ih (i + 1) (by omega) (P.set i ((toPoly B ^ k).coeff i))
      (by rw [List.length_set]; omega) (by
        intro j hj
        rw [getD_set (by omega)]
        split
        · rename_i h; rw [h]
        · exact hP j (by omega))
    exact ⟨Q, h1, by omega, fun j hj => h3 j (by omega)⟩

/-- All entries computed in the loop are integers. -/
theorem jcpLoop_whole {B : List ℚ} {k : Nat} (h0 : B.getD 0 0 ≠ 0) (c i : Nat) (hi : 1 ≤ i)
    (P : List ℚ) (hl : P.length = i + c) :
    ∃ Q, jcpLoop B k (B.getD 0 0) (List.range' i c) P = .ok Q ∧ Q.length = i + c ∧
      (∀ j, i ≤ j → Whole (Q.getD j 0)) ∧ ∀ j, j < i → Q.getD j 0 = P.getD j 0 := by
  induction c generalizing i P with
  | zero => exact ⟨P, rfl, hl, fun j hj => by rw [getD_ge (by omega)]; exact whole_zero, fun _ _ => rfl⟩
  | succ c ih =>
    rw [List.range'_succ, jcpLoop]
    have hne : (i : ℚ) * B.getD 0 0 ≠ 0 := mul_ne_zero (by rw [Nat.cast_ne_zero]; omega) h0
    rw [if_neg hne]
    obtain ⟨Q, h1, h2, h3, h4⟩ := ih (i + 1) (by omega)
      (P.set i (floorDiv (jcpSum B P k i (min B.length (i + 1))) (i * B.getD 0 0)))
      (by rw [List.length_set]; omega)
    refine ⟨Q, h1, by omega, ?_, ?_⟩
    · intro j hj
      by_cases e : j = i
      · subst e
        rw [h4 j (by omega), getD_set (by omega), if_pos rfl]
        exact whole_floorDiv _ _
      · exact h3 j (by omega)
    · intro j hj
      rw [h4 j (by omega), getD_set (by omega), if_neg (by omega)]

theorem coeff_pow_zero (B : List ℚ) (k : Nat) : (toPoly B ^ k).coeff 0 = B.getD 0 0 ^ k := by
  rw [coeff_zero_eq_eval_zero, eval_pow, ← coeff_zero_eq_eval_zero, coeff_toPoly]

theorem natDegree_toPoly_le (B : List ℚ) : (toPoly B).natDegree ≤ B.length - 1 := by
  rw [natDegree_le_iff_coeff_eq_zero]
  intro N hN
  rw [coeff_toPoly, getD_ge (by omega)]

theorem lowest_spec (A : List ℚ) :
    ((∀ a ∈ A, a = 0) ∧ lowest A = .error .indexError) ∨
    ∃ s, lowest A = .ok s ∧ (A.drop s).getD 0 0 ≠ 0 ∧ A.take s = List.replicate s 0 := by
  induction A with
  | nil => left; simp [lowest]
  | cons a A ih =>
    unfold lowest
    by_cases h : a = 0
    · rw [if_pos h]
      rcases ih with ⟨h1, h2⟩ | ⟨s, h1, h2, h3⟩
      · left; rw [h2]
        exact ⟨by intro b hb; rcases List.mem_cons.1 hb with rfl | hb; exact h; exact h1 b hb, rfl⟩
      · right
        refine ⟨s + 1, by rw [h1], by simpa using h2, ?_⟩
        rw [List.take_succ_cons, h3, List.replicate_succ, h]
    · right; rw [if_neg h]; exact ⟨0, rfl, by simpa using h, rfl⟩

/-- `power_jcp` returns, and what it returns is the power exactly if the power has integer
coefficients, apart from the lowest one. -/
theorem powerJcp_spec (A : List ℚ) (hA : ∃ a ∈ A, a ≠ 0) (k : Nat) :
    ∃ P s B, powerJcp A k = .ok P ∧ toPoly A = X ^ s * B ∧ B.coeff 0 ≠ 0 ∧
      (toPoly P = toPoly A ^ k ↔ ∀ j, 1 ≤ j → Whole ((B ^ k).coeff j)) := by
  rcases lowest_spec A with ⟨h1, -⟩ | ⟨s, h1, h2, h3⟩
  · obtain ⟨a, ha, hne⟩ := hA
    exact absurd (h1 a ha) hne
  unfold powerJcp
  rw [h1]
  dsimp only
  generalize hB : A.drop s = B at h2
  have hlen : 1 ≤ B.length := by
    by_contra hc
    exact h2 (getD_ge (by omega))
  have hlen0 : ((List.replicate ((B.length - 1) * k + 1) (0 : ℚ)).set 0 (B.getD 0 0 ^ k)).length =
      1 + (B.length - 1) * k := by rw [List.length_set, List.length_replicate]; omega
  have hAB : toPoly A = X ^ s * toPoly B := by
    rw [toPoly_take_drop A s, h3, hB, toPoly_replicate, zero_add]
  obtain ⟨Q, e1, e2, e3, e4⟩ := jcpLoop_whole (k := k) h2 ((B.length - 1) * k) 1 (le_refl _) _ hlen0
  rw [Nat.add_sub_cancel, e1]
  refine ⟨_, s, toPoly B, rfl, hAB, by rw [coeff_toPoly]; exact h2, ?_⟩
  have e5 : toPoly (List.replicate (s * k) 0 ++ Q) = X ^ (s * k) * toPoly Q := by
    rw [toPoly_append, toPoly_replicate, List.length_replicate, zero_add]
  rw [e5, hAB, mul_pow, ← pow_mul]
  have hX : (X ^ (s * k) : ℚ[X]) ≠ 0 := pow_ne_zero _ X_ne_zero
  rw [mul_right_inj' hX]
  constructor
  · intro h j hj
    rw [← h, coeff_toPoly]
    exact e3 j hj
  · intro hz
    obtain ⟨Q', g1, g2, g3⟩ := jcpLoop_spec (k := k) h2 ((B.length - 1) * k) 1 (le_refl _) _ hlen0 hz
      (by
        intro j hj
        rw [getD_set (by rw [List.length_replicate]; omega), if_pos (by omega)]
        have : j = 0 := by omega
        rw [this, coeff_pow_zero])
    rw [e1] at g1
    cases g1
    apply toPoly_ext
    intro j
    by_cases hj : j < 1 + (B.length - 1) * k
    · exact g3 j hj
    · rw [getD_ge (by omega)]
      symm
      apply coeff_eq_zero_of_natDegree_lt
      calc (toPoly B ^ k).natDegree ≤ k * (toPoly B).natDegree := natDegree_pow_le
        _ ≤ k * (B.length - 1) := Nat.mul_le_mul_left _ (natDegree_toPoly_le B)
        _ = (B.length - 1) * k := Nat.mul_comm _ _
        _ < j := by omega

/-! ## The class -/

theorem toPoly_dropLast {l : List ℚ} (h : l.getD (l.length - 1) 0 = 0) :
    toPoly l.dropLast = toPoly l := by
  apply toPoly_ext
  intro i
  rw [coeff_toPoly, List.getD_eq_getElem?_getD, List.getElem?_dropLast]
  by_cases hi : i < l.length - 1
  · rw [if_pos hi, List.getD_eq_getElem?_getD]
  · rw [if_neg hi]
    by_cases he : i = l.length - 1
    · rw [he, h]; rfl
    · rw [getD_ge (by omega)]; rfl

theorem toPoly_popZeros (l : List ℚ) : toPoly (popZeros l) = toPoly l := by
  induction l using popZeros.induct with
  | case1 l h ih => rw [popZeros, dif_pos h, ih, toPoly_dropLast h.2]
  | case2 l h => rw [popZeros, dif_neg h]

theorem toPoly_mk (l : List ℚ) : toPoly (mk l) = toPoly l := by
  unfold mk
  split
  · rename_i h
    rw [List.length_eq_zero_iff] at h
    subst h; simp [toPoly]
  · exact toPoly_popZeros l

/-- A list the constructor can produce: nonempty, and the last entry is nonzero unless it is the only
one. -/
def Reduced (l : List ℚ) : Prop := l ≠ [] ∧ (l.length > 1 → l.getD (l.length - 1) 0 ≠ 0)

theorem reduced_popZeros (l : List ℚ) (h : l ≠ []) : Reduced (popZeros l) := by
  induction l using popZeros.induct with
  | case1 l h' ih =>
    rw [popZeros, dif_pos h']
    apply ih
    intro hc
    have := congrArg List.length hc
    rw [List.length_dropLast] at this
    simp at this
    omega
  | case2 l h' =>
    rw [popZeros, dif_neg h']
    refine ⟨h, fun hl hc => h' ⟨hl, hc⟩⟩

theorem reduced_mk (l : List ℚ) : Reduced (mk l) := by
  unfold mk
  split
  · exact ⟨by simp, by simp⟩
  · rename_i h
    exact reduced_popZeros l (by intro hc; subst hc; simp at h)

/-- Reduced lists are determined by their polynomial. -/
theorem Reduced.inj {l l' : List ℚ} (h : Reduced l) (h' : Reduced l') (he : toPoly l = toPoly l') :
    l = l' := by
  have hc : ∀ i, l.getD i 0 = l'.getD i 0 := by
    intro i
    rw [← coeff_toPoly, ← coeff_toPoly, he]
  have key : ∀ {a b : List ℚ}, Reduced a → Reduced b → (∀ i, a.getD i 0 = b.getD i 0) →
      a.length ≤ b.length := by
    intro a b ha hb hab
    by_contra hlt
    have hb1 : 1 ≤ b.length := by
      have := hb.1
      rcases b with _ | _ <;> simp at *
    have := ha.2 (by omega)
    rw [hab, getD_ge (by omega)] at this
    exact this rfl
  have hl : l.length = l'.length := le_antisymm (key h h' hc) (key h' h (fun i => (hc i).symm))
  apply List.ext_getElem? 
  intro i
  by_cases hi : i < l.length
  · have := hc i
    rw [List.getD_eq_getElem?_getD, List.getD_eq_getElem?_getD, List.getElem?_eq_getElem hi,
      List.getElem?_eq_getElem (by omega : i < l'.length)] at this
    rw [List.getElem?_eq_getElem hi, List.getElem?_eq_getElem (by omega : i < l'.length)]
    exact congrArg some this
  · rw [List.getElem?_eq_none (by omega), List.getElem?_eq_none (by omega)]

theorem call_eq_eval (f : List ℚ) (x : ℚ) : call f x = (toPoly f).eval x := by
  unfold call
  rw [List.foldl_reverse]
  induction f with
  | nil => simp [toPoly]
  | cons c f ih => rw [List.foldr_cons, ih, toPoly, eval_add, eval_C, eval_mul, eval_X]; ring

theorem toPoly_mul (f g : List ℚ) : toPoly (mul f g) = toPoly f * toPoly g := by
  unfold mul
  rw [toPoly_mk, toPoly_mulKaratsuba]

theorem powerBinaryLoop_spec (z y : List ℚ) (k : Nat) (hk : 1 ≤ k) :
    toPoly (powerBinaryLoop z y k) = toPoly z ^ k * toPoly y := by
  induction k using Nat.strong_induction_on generalizing z y with
  | _ k ih =>
    rw [powerBinaryLoop]
    by_cases h : k / 2 = 0
    · rw [dif_pos h]
      have : k = 1 := by omega
      subst this
      rw [if_pos (by rfl), toPoly_mul]; ring
    · rw [dif_neg h, ih (k / 2) (by omega) _ _ (by omega), toPoly_mul]
      rw [← pow_two, ← pow_mul]
      by_cases ho : k % 2 = 1
      · rw [if_pos ho, toPoly_mul, ← mul_assoc, ← pow_succ]
        congr 2; omega
      · rw [if_neg ho]
        congr 2; omega

theorem powerBinary_spec (f : List ℚ) (k : Nat) : toPoly (powerBinary f k) = toPoly f ^ k := by
  unfold powerBinary
  have h1 : toPoly (mk [1]) = 1 := by rw [toPoly_mk]; simp [toPoly]
  split
  · rename_i h; rw [h1, h, pow_zero]
  · rw [powerBinaryLoop_spec _ _ _ (by omega), h1, mul_one]

/-! ## Division -/

theorem length_pseudoRow (v : List ℚ) (n k : Nat) (js : List Nat) (u : List ℚ) :
    (pseudoRow v n k js u).length = u.length := by
  induction js generalizing u with
  | nil => rfl
  | cons j js ih =>
    rw [pseudoRow]
    split <;> rw [ih, List.length_set]

theorem pseudoRow_spec (v : List ℚ) (n k c : Nat) (hc : c ≤ n + k) (u : List ℚ)
    (hl : n + k < u.length) (i : Nat) :
    (pseudoRow v n k (List.range c).reverse u).getD i 0 =
      if i < c then
        (if i < k then v.getD n 0 * u.getD i 0
         else v.getD n 0 * u.getD i 0 - u.getD (n + k) 0 * v.getD (i - k) 0)
      else u.getD i 0 := by
  induction c generalizing u with
  | zero => simp [pseudoRow]
  | succ c ih =>
    rw [List.range_succ, List.reverse_append, List.reverse_singleton, List.singleton_append, pseudoRow]
    split
    · rename_i hck
      rw [ih (by omega) _ (by rw [List.length_set]; omega), getD_set (by omega), getD_set (by omega),
        if_neg (show n + k ≠ c by omega)]
      by_cases h1 : i < c
      · rw [if_pos h1, if_pos (show i < c + 1 by omega), if_neg (show i ≠ c by omega)]
      · rw [if_neg h1]
        by_cases h2 : i = c
        · subst h2
          rw [if_pos rfl, if_pos (show i < i + 1 by omega), if_pos hck]
        · rw [if_neg h2, if_neg (by omega)]
    · rename_i hck
      rw [ih (by omega) _ (by rw [List.length_set]; omega), getD_set (by omega), getD_set (by omega),
        if_neg (show n + k ≠ c by omega)]
      by_cases h1 : i < c
      · rw [if_pos h1, if_pos (show i < c + 1 by omega), if_neg (show i ≠ c by omega)]
      · rw [if_neg h1]
        by_cases h2 : i = c
        · subst h2
          rw [if_pos rfl, if_pos (show i < i + 1 by omega), if_neg hck]
        · rw [if_neg h2, if_neg (by omega)]

theorem getD_take (l : List ℚ) (t i : Nat) : (l.take t).getD i 0 = if i < t then l.getD i 0 else 0 := by
  rw [List.getD_eq_getElem?_getD, List.getElem?_take]
  split
  · rw [List.getD_eq_getElem?_getD]
  · rfl

theorem pseudoRow_poly {v : List ℚ} {n : Nat} (hv : v.length = n + 1) (k : Nat) (u : List ℚ)
    (hl : n + k < u.length) :
    toPoly ((pseudoRow v n k (List.range (n + k)).reverse u).take (n + k)) =
      C (v.getD n 0) * toPoly (u.take (n + k + 1)) - C (u.getD (n + k) 0) * X ^ k * toPoly v := by
  apply toPoly_ext
  intro i
  rw [getD_take, pseudoRow_spec v n k _ (le_refl _) u hl, coeff_sub, coeff_C_mul, mul_assoc, coeff_C_mul,
    coeff_X_pow_mul', coeff_toPoly, coeff_toPoly, getD_take]
  by_cases h1 : i < n + k
  · rw [if_pos h1, if_pos h1, if_pos (show i < n + k + 1 by omega)]
    by_cases h2 : i < k
    · rw [if_pos h2, if_neg (show ¬ k ≤ i by omega)]; ring
    · rw [if_neg h2, if_pos (show k ≤ i by omega)]
  · rw [if_neg h1]
    by_cases h2 : i = n + k
    · subst h2
      rw [if_pos (by omega), if_pos (by omega), Nat.add_sub_cancel]; ring
    · rw [if_neg (by omega), if_pos (by omega), getD_ge (l := v) (i := i - k) (by omega)]; ring

theorem pseudoLoop_spec {v : List ℚ} {n : Nat} (hv : v.length = n + 1) (c : Nat) (q u : List ℚ)
    (hq : c ≤ q.length) (hq0 : ∀ j, j < c → q.getD j 0 = 0) (hu : n + c ≤ u.length) :
    toPoly ((pseudoLoop v n (List.range c).reverse q u).2.take n) +
      (toPoly (pseudoLoop v n (List.range c).reverse q u).1 - toPoly q) * toPoly v =
      C (v.getD n 0 ^ c) * toPoly (u.take (n + c)) := by
  induction c generalizing q u with
  | zero => simp [pseudoLoop]
  | succ c ih =>
    rw [List.range_succ, List.reverse_append, List.reverse_singleton, List.singleton_append, pseudoLoop]
    have h := ih (q.set c (u.getD (n + c) 0 * v.getD n 0 ^ c))
      (pseudoRow v n c (List.range (n + c)).reverse u) (by rw [List.length_set]; omega)
      (by
        intro j hj
        rw [getD_set (by omega), if_neg (by omega), hq0 j (by omega)])
      (by rw [length_pseudoRow]; omega)
    rw [pseudoRow_poly hv c u (by omega), toPoly_set _ _ _ (by omega), hq0 c (by omega), sub_zero] at h
    rw [C_mul] at h
    rw [pow_succ, C_mul, ← add_assoc]
    linear_combination h

theorem toPoly_quoRow (qi : ℚ) (i : Nat) (r : List ℚ) (j : Nat) (b : List ℚ)
    (h : i + j + b.length ≤ r.length) :
    toPoly (quoRow qi i r j b) = toPoly r - C qi * X ^ (i + j) * toPoly b := by
  induction b generalizing r j with
  | nil => simp [quoRow, toPoly]
  | cons y b ih =>
    rw [List.length_cons] at h
    have : (fun e : ℚ => e - qi * y) = fun e => e + (-(qi * y)) := by funext e; ring
    rw [quoRow, ih _ _ (by rw [List.length_modify]; omega), this, toPoly_modify _ _ _ (by omega), toPoly,
      C_neg, C_mul]
    ring

theorem length_quoRow (qi : ℚ) (i : Nat) (r : List ℚ) (j : Nat) (b : List ℚ) :
    (quoRow qi i r j b).length = r.length := by
  induction b generalizing r j with
  | nil => rfl
  | cons y b ih => rw [quoRow, ih, List.length_modify]

theorem quoLoop_spec (b : List ℚ) (hb : 1 ≤ b.length) (lc : ℚ) (c : Nat) (q r : List ℚ)
    (hq : c ≤ q.length) (hq0 : ∀ j, j < c → q.getD j 0 = 0) (hr : c + b.length ≤ r.length + 1) :
    toPoly (quoLoop b lc (List.range c).reverse q r).2 +
      (toPoly (quoLoop b lc (List.range c).reverse q r).1 - toPoly q) * toPoly b = toPoly r := by
  induction c generalizing q r with
  | zero => simp [quoLoop]
  | succ c ih =>
    rw [List.range_succ, List.reverse_append, List.reverse_singleton, List.singleton_append, quoLoop]
    have h := ih (q.set c (floorDiv (r.getD (c + b.length - 1) 0) lc))
      (quoRow (floorDiv (r.getD (c + b.length - 1) 0) lc) c r 0 b) (by rw [List.length_set]; omega)
      (by
        intro j hj
        rw [getD_set (by omega), if_neg (by omega), hq0 j (by omega)])
      (by rw [length_quoRow]; omega)
    rw [toPoly_quoRow _ _ _ _ _ (by omega), toPoly_set _ _ _ (by omega), hq0 c (by omega), sub_zero,
      Nat.add_zero] at h
    linear_combination h

/-- When an exact quotient with remainder exists, the loop finds it. -/
theorem quoLoop_exact (b : List ℚ) (hb : 1 ≤ b.length) (hlc : b.getD (b.length - 1) 0 ≠ 0)
    (R0 : ℚ[X]) (hR : ∀ j, b.length - 1 ≤ j → R0.coeff j = 0) (c : Nat) (q r : List ℚ) (Q0 : ℚ[X])
    (hZ : ∀ j, Whole (Q0.coeff j)) (hQ : ∀ j, c ≤ j → Q0.coeff j = 0) (he : toPoly r = Q0 * toPoly b + R0)
    (hq : c ≤ q.length) (hq0 : ∀ j, j < c → q.getD j 0 = 0) (hr : c + b.length ≤ r.length + 1) :
    toPoly (quoLoop b (b.getD (b.length - 1) 0) (List.range c).reverse q r).2 = R0 ∧
      toPoly (quoLoop b (b.getD (b.length - 1) 0) (List.range c).reverse q r).1 = toPoly q + Q0 := by
  induction c generalizing q r Q0 with
  | zero =>
    have : Q0 = 0 := by ext j; rw [hQ j (by omega)]; simp
    subst this
    rw [List.range_zero, List.reverse_nil, quoLoop]
    exact ⟨by rw [he]; ring, by ring⟩
  | succ c ih =>
    rw [List.range_succ, List.reverse_append, List.reverse_singleton, List.singleton_append, quoLoop]
    have hco : r.getD (c + b.length - 1) 0 = b.getD (b.length - 1) 0 * Q0.coeff c := by
      rw [← coeff_toPoly, he, coeff_add, hR _ (by omega), add_zero,
        show c + b.length - 1 = c + (b.length - 1) by omega,
        coeff_mul_add_eq_of_natDegree_le _ (natDegree_toPoly_le b), coeff_toPoly, mul_comm]
      rw [natDegree_le_iff_coeff_eq_zero]
      intro N hN
      exact hQ N (by omega)
    rw [floorDiv_exact hlc (hZ c) hco]
    have h := ih (q.set c (Q0.coeff c)) (quoRow (Q0.coeff c) c r 0 b) (Q0 - C (Q0.coeff c) * X ^ c)
      (by
        intro j
        rw [coeff_sub, coeff_C_mul, coeff_X_pow]
        by_cases hjc : j = c
        · subst hjc
          rw [if_pos rfl, mul_one, sub_self]
          exact whole_zero
        · rw [if_neg hjc, mul_zero, sub_zero]
          exact hZ j)
      (by
        intro j hj
        rw [coeff_sub, coeff_C_mul, coeff_X_pow]
        by_cases hjc : j = c
        · subst hjc; simp
        · rw [if_neg hjc, hQ j (by omega)]; simp)
      (by
        rw [toPoly_quoRow _ _ _ _ _ (by omega), he, Nat.add_zero]; ring)
      (by rw [List.length_set]; omega)
      (by
        intro j hj
        rw [getD_set (by omega), if_neg (by omega), hq0 j (by omega)])
      (by rw [length_quoRow]; omega)
    refine ⟨h.1, ?_⟩
    rw [h.2, toPoly_set _ _ _ (by omega), hq0 c (by omega), sub_zero]
    ring

/-- The quotient has integer coefficients. -/
theorem quoLoop_whole (b : List ℚ) (lc : ℚ) (is : List Nat) (q r : List ℚ)
    (hq : ∀ j, Whole (q.getD j 0)) : ∀ j, Whole ((quoLoop b lc is q r).1.getD j 0) := by
  induction is generalizing q r with
  | nil => exact hq
  | cons i is ih =>
    rw [quoLoop]
    refine ih _ _ fun j => ?_
    by_cases hi : i < q.length
    · rw [getD_set hi]
      split
      · exact whole_floorDiv _ _
      · exact hq j
    · rw [List.set_eq_of_length_le (by omega)]
      exact hq j

end Rosemary.RatPolys
