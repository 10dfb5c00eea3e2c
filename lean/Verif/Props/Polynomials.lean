import Verif.Lemmas.Polynomials
import Mathlib.Algebra.Polynomial.Roots
import Mathlib.Algebra.Polynomial.Div

/-!
# C46, C47, C48, C49, C50: polynomials and power series

`toPoly l` (Lemmas/Polynomials.lean) is Mathlib's polynomial over the integers with the coefficients
`l`, constant term first: its `i`-th coefficient is `l[i]`, see `C46_toPoly`.
-/

namespace Rosemary.Props

open Polynomial Rosemary.Polys

/-! ## C46: sums and products -/

/-- How the theorems below read a coefficient list. -/
theorem C46_toPoly (l : List Int) (i : Nat) : (toPoly l).coeff i = l.getD i 0 := coeff_toPoly l i

/-- C46: `list_add` and `list_subtract`. -/
theorem C46_list_add_subtract (A B : List Int) :
    toPoly (listAdd A B) = toPoly A + toPoly B ∧ toPoly (listSubtract A B) = toPoly A - toPoly B ∧
    (listAdd A B).length = max A.length B.length ∧
    (listSubtract A B).length = max A.length B.length :=
  ⟨toPoly_listAdd A B, toPoly_listSubtract A B, length_listAdd A B, length_listSubtract A B⟩

/-- C46: `mul_classical` and `mul_karatsuba` return the product. -/
theorem C46_mul (M N : List Int) :
    toPoly (mulClassical M N) = toPoly M * toPoly N ∧
    toPoly (mulKaratsuba M N) = toPoly M * toPoly N ∧
    (M ≠ [] → N ≠ [] → (mulClassical M N).length = M.length + N.length - 1) :=
  ⟨toPoly_mulClassical M N, toPoly_mulKaratsuba M N, length_mulClassical M N⟩

/-- C46: the power series products are full products; the Karatsuba version for every threshold of at
least 2 (the default is 40). -/
theorem C46_ps_mult (M N : List Int) (kthresh : Int) (h : 2 ≤ kthresh) :
    toPoly (psMultClassical M N) = toPoly M * toPoly N ∧
    ∃ P, psMultKaratsuba M N kthresh = some P ∧ toPoly P = toPoly M * toPoly N :=
  ⟨toPoly_psMultClassical M N, psMultKaratsuba_spec M N kthresh h⟩

/-- With a threshold below 2 the Karatsuba version recurses forever on two constants. -/
theorem C46_ps_mult_karatsuba_threshold (a b kthresh : Int) (h : kthresh ≤ 1) :
    psMultKaratsuba [a] [b] kthresh = none := by
  have key : ∀ (M N P : List Int), psMultKaratsuba M N kthresh = some P →
      M.length = 1 → N.length = 1 → False := by
    apply psMultKaratsuba.partial_correctness kthresh
      (motive := fun M N _ => M.length = 1 → N.length = 1 → False)
    intro f ih M N P hP hM hN
    rw [if_neg (by omega)] at hP
    have hk : max M.length N.length / 2 = 0 := by omega
    rw [hk] at hP
    simp only [Option.bind_eq_bind, Option.bind_eq_some_iff] at hP
    obtain ⟨z0, -, z2, h2, -⟩ := hP
    exact ih _ _ _ h2 (by simpa using hM) (by simpa using hN)
  cases hr : psMultKaratsuba [a] [b] kthresh with
  | none => rfl
  | some P => exact (key _ _ _ hr rfl rfl).elim

example : mulKaratsuba [1, 1] [-1, 1] = [-1, 0, 1] := by decide +kernel
example : mulKaratsuba ((List.range 31).map fun _ => 1) (1 :: -1 :: List.replicate 28 0) =
    1 :: List.replicate 30 0 ++ [-1] ++ List.replicate 28 0 := by decide +kernel

/-! ## C47: powers -/

/-- C47: `power_jcp(A, k)` has the coefficients of the `k`-th power, for every nonzero `A`; every floor
division in it is exact. -/
theorem C47_power_jcp (A : List Int) (hA : ∃ a ∈ A, a ≠ 0) (k : Nat) :
    ∃ P, powerJcp A k = .ok P ∧ toPoly P = toPoly A ^ k := powerJcp_spec A hA k

/-- For the zero polynomial it raises `IndexError`. -/
theorem C47_power_jcp_zero (A : List Int) (hA : ∀ a ∈ A, a = 0) (k : Nat) :
    powerJcp A k = .error .indexError := by
  unfold powerJcp
  rcases lowest_spec A with ⟨-, h⟩ | ⟨s, -, h2, -⟩
  · rw [h]
  · exfalso
    apply h2
    rw [List.getD_eq_getElem?_getD, List.getElem?_drop]
    cases h : A[s + 0]? with
    | none => rfl
    | some a => exact hA a (List.mem_of_getElem? h)

/-- C47: `ps_power(A, k)` has the first `len(A)` coefficients of the `k`-th power when the constant term
is nonzero. -/
theorem C47_ps_power (A : List Int) (a0 : Int) (h0 : A[0]? = some a0) (hne : a0 ≠ 0) (k : Nat) :
    ∃ P, psPower A k = .ok P ∧ P.length = A.length ∧
      ∀ i, i < A.length → P.getD i 0 = (toPoly A ^ k).coeff i := by
  cases A with
  | nil => simp at h0
  | cons a A =>
    have : a = a0 := by simpa using h0
    subst this
    obtain ⟨Q, e1, e2, e3⟩ := psPowerLoop_spec (B := a :: A) (k := k) hne A.length 1 (le_refl _)
      ((List.replicate (a :: A).length 0).set 0 (a ^ k))
      (by rw [List.length_set, List.length_replicate, List.length_cons]; omega)
      (by
        intro j hj
        have : j = 0 := by omega
        subst this
        rw [getD_set (by simp), if_pos rfl, coeff_pow_zero]; rfl)
    refine ⟨Q, ?_, by rw [e2, List.length_cons]; omega, fun i hi => e3 i (by
      rw [List.length_cons] at hi; omega)⟩
    rw [← e1]
    rfl

/-- With constant term zero and at least two coefficients it raises. -/
theorem C47_ps_power_zero (A : List Int) (k : Nat) :
    psPower [] k = .error .indexError ∧
    (A ≠ [] → psPower (0 :: A) k = .error .zeroDivisionError) := by
  refine ⟨rfl, fun h => ?_⟩
  cases A with
  | nil => exact absurd rfl h
  | cons b A =>
    unfold psPower
    dsimp only
    rw [List.length_cons, Nat.add_sub_cancel, List.length_cons, List.range'_succ, psPowerLoop,
      if_pos (by simp)]

/-- C47: `f ** k` and `power_binary`. -/
theorem C47_polynomial_pow (f : List Int) (k : Nat) :
    toPoly (powerBinary f k) = toPoly f ^ k ∧
    ((∃ a ∈ f, a ≠ 0) → ∃ P, Polys.pow f k = .ok P ∧ toPoly P = toPoly f ^ k ∧ Reduced P) ∧
    ((∀ a ∈ f, a = 0) → Polys.pow f k = .error .indexError) := by
  refine ⟨powerBinary_spec f k, fun h => ?_, fun h => ?_⟩
  · obtain ⟨P, h1, h2⟩ := powerJcp_spec f h k
    exact ⟨mk P, by unfold Polys.pow; rw [h1], by rw [toPoly_mk, h2], reduced_mk P⟩
  · unfold Polys.pow
    rw [C47_power_jcp_zero f h k]

/-- C47 is violated for the zero polynomial: `Polynomial([0])**2` raises while `power_binary` gives the
zero polynomial. -/
theorem C47_zero_power_violation : Polys.pow (mk [0]) 2 = .error .indexError ∧ powerBinary (mk [0]) 2 = [0] := by
  decide +kernel

example : powerJcp [0, 2, -3, 1] 3 = .ok [0, 0, 0, 8, -36, 66, -63, 33, -9, 1] := by decide +kernel
example : psPower [2, 1, 0, 0] 3 = .ok [8, 12, 6, 1] := by decide +kernel

/-! ## C48: inversion -/

/-- C48: for constant term 1 or -1, `ps_invert(A)` has as many coefficients as `A` and the product is 1
up to that precision. -/
theorem C48_ps_invert (A : List Int) (a0 : Int) (h0 : A[0]? = some a0) (hu : a0 = 1 ∨ a0 = -1) :
    ∃ B, psInvert A = .ok B ∧ B.length = A.length ∧
      ∀ i, i < A.length → (toPoly A * toPoly B).coeff i = if i = 0 then 1 else 0 :=
  psInvert_spec h0 hu

/-- The error branches. -/
theorem C48_ps_invert_error (A : List Int) :
    psInvert [] = .error .indexError ∧ psInvert (0 :: A) = .error .zeroDivisionError := ⟨rfl, rfl⟩

example : psInvert [1, -1, -1, 0, 0, 0] = .ok [1, 1, 2, 3, 5, 8] := by decide +kernel
example : psInvert [-1, 2, 0, 0] = .ok [-1, -2, -4, -8] := by decide +kernel

/-! ## C49: division -/

theorem degree_toPoly {v : List Int} (hv : Reduced v) (h0 : toPoly v ≠ 0) :
    (toPoly v).degree = ((v.length - 1 : Nat) : WithBot ℕ) ∧ v.getD (v.length - 1) 0 ≠ 0 := by
  have hl : 1 ≤ v.length := by
    have := hv.1
    rcases v with _ | _ <;> simp at *
  have hne : v.getD (v.length - 1) 0 ≠ 0 := by
    by_cases h : v.length > 1
    · exact hv.2 h
    · intro hc
      apply h0
      apply toPoly_ext
      intro i
      by_cases hi : i = 0
      · subst hi
        rw [show v.length - 1 = 0 by omega] at hc
        rw [hc]; simp
      · rw [getD_ge (by omega)]; simp
  refine ⟨?_, hne⟩
  apply degree_eq_of_le_of_coeff_ne_zero
  · rw [degree_le_iff_coeff_zero]
    intro m hm
    have : v.length - 1 < m := by exact_mod_cast hm
    rw [coeff_toPoly, getD_ge (by omega)]
  · rw [coeff_toPoly]; exact hne

/-- C49: `pseudo_quo_rem(u, v) = (q, r)` satisfies `lc(v)^(deg u - deg v + 1) u = q v + r` with
`deg r < deg v` (the exponent is 0 when `deg u < deg v`). -/
theorem C49_pseudo_quo_rem (u v : List Int) (hu : Reduced u) (hv : Reduced v) (h0 : toPoly v ≠ 0) :
    C (v.getD (v.length - 1) 0 ^ (u.length + 1 - v.length)) * toPoly u =
      toPoly (pseudoQuoRem u v).1 * toPoly v + toPoly (pseudoQuoRem u v).2 ∧
    (toPoly (pseudoQuoRem u v).2).degree < (toPoly v).degree := by
  obtain ⟨hd, hne⟩ := degree_toPoly hv h0
  have hvl : 1 ≤ v.length := by
    have := hv.1
    rcases v with _ | _ <;> simp at *
  have hul : 1 ≤ u.length := by
    have := hu.1
    rcases u with _ | _ <;> simp at *
  rw [hd]
  unfold pseudoQuoRem
  dsimp only
  split
  · rename_i h
    rw [toPoly_mk]
    dsimp only
    rw [show u.length + 1 - v.length = 0 by omega]
    refine ⟨by simp [toPoly], ?_⟩
    rw [degree_lt_iff_coeff_zero]
    intro m hm
    have hm : v.length - 1 ≤ m := by exact_mod_cast hm
    rw [coeff_toPoly, getD_ge (by omega)]
  · rename_i h
    have hs := pseudoLoop_spec (v := v) (n := v.length - 1) (by omega)
      (u.length - 1 - (v.length - 1) + 1) (List.replicate (u.length - 1 - (v.length - 1) + 1) 0) u
      (by simp) (by intro j hj; simp [List.getElem?_replicate]; split <;> rfl) (by omega)
    rw [toPoly_replicate, sub_zero] at hs
    rw [toPoly_mk, toPoly_mk]
    constructor
    · rw [show u.length + 1 - v.length = u.length - 1 - (v.length - 1) + 1 by omega]
      rw [List.take_of_length_le (l := u) (by omega)] at hs
      rw [← hs]; ring
    · rw [degree_lt_iff_coeff_zero]
      intro m hm
      have hm : v.length - 1 ≤ m := by exact_mod_cast hm
      rw [coeff_toPoly, getD_take, if_neg (by omega)]

/-- C49: whenever `quo_rem(a, b) = (q, r)` returns, `a = q b + r`. -/
theorem C49_quo_rem (a b q r : List Int) (ha : Reduced a) (hb : Reduced b)
    (h : quoRem a b = .ok (q, r)) : toPoly a = toPoly q * toPoly b + toPoly r := by
  have hbl : 1 ≤ b.length := by
    have := hb.1
    rcases b with _ | _ <;> simp at *
  unfold quoRem at h
  dsimp only at h
  split at h
  · injection h with h
    injection h with h1 h2
    rw [← h1, ← h2, toPoly_mk, toPoly_mk]
    simp [toPoly]
  · split at h
    · exact absurd h (by simp)
    · split at h
      · exact absurd h (by simp)
      · injection h with h
        injection h with h1 h2
        rw [← h1, ← h2, toPoly_mk, toPoly_mk]
        have hs := quoLoop_spec b hbl (b.getD (b.length - 1) 0) (a.length - b.length + 1)
          (List.replicate (a.length - b.length + 1) 0) a (by simp)
          (by intro j hj; simp [List.getElem?_replicate]; split <;> rfl) (by omega)
        rw [toPoly_replicate, sub_zero] at hs
        rw [← hs]; ring

/-- C49: when an exact division with remainder exists over the integers, `quo_rem` returns it. -/
theorem C49_quo_rem_complete (a b : List Int) (ha : Reduced a) (hb : Reduced b) (h0 : toPoly b ≠ 0)
    (Q R : ℤ[X]) (he : toPoly a = Q * toPoly b + R) (hR : R.degree < (toPoly b).degree) :
    ∃ q r, quoRem a b = .ok (q, r) ∧ toPoly q = Q ∧ toPoly r = R := by
  obtain ⟨hd, hne⟩ := degree_toPoly hb h0
  have hbl : 1 ≤ b.length := by
    have := hb.1
    rcases b with _ | _ <;> simp at *
  have hRc : ∀ j, b.length - 1 ≤ j → R.coeff j = 0 := by
    intro j hj
    rw [hd, degree_lt_iff_coeff_zero] at hR
    exact hR j (by exact_mod_cast hj)
  -- the degree of the quotient
  have hQd : ∀ j, a.length + 1 - b.length ≤ j → Q.coeff j = 0 := by
    by_contra hc
    push Not at hc
    obtain ⟨j, hj1, hj2⟩ := hc
    have hQ0 : Q ≠ 0 := by rintro rfl; simp at hj2
    have hj3 : j ≤ Q.natDegree := le_natDegree_of_ne_zero hj2
    have hco : (Q * toPoly b).coeff (Q.natDegree + (b.length - 1)) =
        Q.coeff Q.natDegree * b.getD (b.length - 1) 0 := by
      rw [coeff_mul_add_eq_of_natDegree_le (le_refl _) (natDegree_toPoly_le b), coeff_toPoly]
    have h1 : (toPoly a).coeff (Q.natDegree + (b.length - 1)) = 0 := by
      rw [coeff_toPoly, getD_ge (by omega)]
    rw [he, coeff_add, hRc _ (by omega), add_zero, hco] at h1
    rcases mul_eq_zero.1 h1 with h | h
    · exact hQ0 (leadingCoeff_eq_zero.1 h)
    · exact hne h
  unfold quoRem
  dsimp only
  split
  · rename_i hlt
    have hQ : Q = 0 := by ext j; rw [hQd j (by omega)]; simp
    subst hQ
    refine ⟨_, _, rfl, ?_, ?_⟩
    · rw [toPoly_mk]; simp [toPoly]
    · rw [toPoly_mk, he]; ring
  · rename_i hlt
    have hmod : Int.fmod (a.getD (a.length - 1) 0) (b.getD (b.length - 1) 0) = 0 := by
      apply Int.fmod_eq_zero_of_dvd
      rw [← coeff_toPoly a, he, coeff_add, hRc _ (by omega), add_zero,
        show a.length - 1 = (a.length - b.length) + (b.length - 1) by omega,
        coeff_mul_add_eq_of_natDegree_le _ (natDegree_toPoly_le b), coeff_toPoly]
      · exact Dvd.intro_left _ rfl
      · rw [natDegree_le_iff_coeff_eq_zero]
        intro N hN
        exact hQd N (by omega)
    rw [if_neg (by rw [hmod]; simp)]
    obtain ⟨h1, h2⟩ := quoLoop_exact b hbl hne R hRc (a.length - b.length + 1)
      (List.replicate (a.length - b.length + 1) 0) a Q (fun j hj => hQd j (by omega)) he (by simp)
      (by intro j hj; simp [List.getElem?_replicate]; split <;> rfl) (by omega)
    refine ⟨_, _, rfl, ?_, ?_⟩
    · rw [toPoly_mk, h2, toPoly_replicate, zero_add]
    · rw [toPoly_mk, h1]

/-- C49: for a divisor with leading coefficient 1 or -1, `quo_rem` always returns the division with
remainder. -/
theorem C49_quo_rem_unit (a b : List Int) (ha : Reduced a) (hb : Reduced b)
    (hlc : b.getD (b.length - 1) 0 = 1 ∨ b.getD (b.length - 1) 0 = -1) :
    ∃ q r, quoRem a b = .ok (q, r) ∧ toPoly a = toPoly q * toPoly b + toPoly r ∧
      (toPoly r).degree < (toPoly b).degree := by
  have h0 : toPoly b ≠ 0 := by
    intro hc
    have := coeff_toPoly b (b.length - 1)
    rw [hc] at this
    simp only [coeff_zero] at this
    rcases hlc with h | h <;> rw [h] at this <;> omega
  have hlead : (toPoly b).leadingCoeff = b.getD (b.length - 1) 0 := by
    obtain ⟨hd, -⟩ := degree_toPoly hb h0
    rw [leadingCoeff, natDegree_eq_of_degree_eq_some hd, coeff_toPoly]
  have : ∃ Q R : ℤ[X], toPoly a = Q * toPoly b + R ∧ R.degree < (toPoly b).degree := by
    rcases hlc with h | h
    · have hm : (toPoly b).Monic := by rw [Monic, hlead, h]
      refine ⟨toPoly a /ₘ toPoly b, toPoly a %ₘ toPoly b, ?_, degree_modByMonic_lt _ hm⟩
      conv_lhs => rw [← modByMonic_add_div (toPoly a) (toPoly b)]
      ring
    · have hm : (-toPoly b).Monic := by rw [Monic, leadingCoeff_neg, hlead, h]; rfl
      refine ⟨-(toPoly a /ₘ -toPoly b), toPoly a %ₘ -toPoly b, ?_, ?_⟩
      · conv_lhs => rw [← modByMonic_add_div (toPoly a) (-toPoly b)]
        ring
      · have := degree_modByMonic_lt (toPoly a) hm
        rwa [degree_neg] at this
  obtain ⟨Q, R, h1, h2⟩ := this
  obtain ⟨q, r, e1, e2, e3⟩ := C49_quo_rem_complete a b ha hb h0 Q R h1 h2
  exact ⟨q, r, e1, by rw [e2, e3, h1], by rw [e3]; exact h2⟩

/-- The divisibility test of `quo_rem` only looks at the leading coefficient: `2x^2 + x` by `2x` passes it
and the "remainder" `x` has the degree of the divisor. -/
theorem C49_quo_rem_degree_violation :
    quoRem [0, 1, 2] [0, 2] = .ok ([0, 1], [0, 1]) ∧ quoRem [0, 2, 1] [0, 2] = .error .valueError ∧
    quoRem [1] [0] = .error .zeroDivisionError := by decide +kernel

example : pseudoQuoRem [1, 0, 3, 1] [1, 2] = ([-5, 10, 4], [13]) := by decide +kernel
example : quoRem [1, 0, 3, 1] [1, -1] = .ok ([-4, -4, -1], [5]) := by decide +kernel

/-! ## C50: ring operations -/

/-- C50: adding, subtracting, negating and multiplying polynomials, and scalars where the code is right,
commutes with evaluation; the missing case is `f - c`, see `C50_sub_scalar_violation`. -/
theorem C50_ring_operations_partial (f g : List Int) (c x : Int) :
    call (add f g) x = call f x + call g x ∧
    call (sub f g) x = call f x - call g x ∧
    call (neg f) x = -call f x ∧
    call (mul f g) x = call f x * call g x ∧
    call (addScalar f c) x = call f x + c ∧
    call (rsubScalar c f) x = c - call f x ∧
    call (mulScalar f c) x = c * call f x ∧
    call (mk f) x = (f.mapIdx (fun i e => e * x ^ i)).sum ∧ call mkX x = x := by
  have hc : toPoly (mkScalar c) = C c := by simp [mkScalar, toPoly]
  have hadd : ∀ f g, toPoly (add f g) = toPoly f + toPoly g := fun f g => by
    unfold add; rw [toPoly_mk, toPoly_listAdd]
  have hneg : ∀ f, toPoly (neg f) = -toPoly f := fun f => by
    unfold neg; rw [toPoly_mk, toPoly_map_neg]
  simp only [call_eq_eval]
  refine ⟨by rw [hadd, eval_add], ?_, by rw [hneg, eval_neg], by rw [toPoly_mul, eval_mul], ?_, ?_, ?_,
    ?_, by simp [mkX, toPoly]⟩
  · unfold sub; rw [toPoly_mk, toPoly_listSubtract, eval_sub]
  · unfold addScalar; rw [hadd, hc, eval_add, eval_C]
  · unfold rsubScalar addScalar; rw [hadd, hneg, hc, eval_add, eval_C, eval_neg]; ring
  · unfold mulScalar; rw [toPoly_mk, toPoly_map_mul, eval_mul, eval_C]
  · rw [toPoly_mk]
    have key : ∀ (f : List Int) (y : Int),
        (f.mapIdx (fun i e => e * (y * x ^ i))).sum = y * (toPoly f).eval x := by
      intro f
      induction f with
      | nil => intro y; simp [toPoly]
      | cons a f ih =>
        intro y
        rw [List.mapIdx_cons, List.sum_cons, toPoly, eval_add, eval_C, eval_mul, eval_X]
        have := ih (y * x)
        simp only [mul_assoc, ← pow_succ'] at this
        rw [this]
        ring
    have := key f 1
    simp only [one_mul] at this
    exact this.symm

/-- `f - c` adds the number `c`. -/
theorem C50_sub_scalar_violation (f : List Int) (c x : Int) :
    call (subScalar f c) x = call f x + c ∧ subScalar [5, 1] 2 = [7, 1] := by
  refine ⟨?_, by decide +kernel⟩
  exact (C50_ring_operations_partial f f c x).2.2.2.2.1

/-- C50: the operations return reduced coefficient lists, and `==` on them is equality of the
polynomials as functions. -/
theorem C50_equality (f g : List Int) (hf : Reduced f) (hg : Reduced g) :
    eq f g = true ↔ ∀ x, call f x = call g x := by
  unfold eq
  rw [beq_iff_eq]
  constructor
  · rintro rfl x; rfl
  · intro h
    apply hf.inj hg
    apply Polynomial.funext
    intro x
    rw [← call_eq_eval, ← call_eq_eval, h x]

/-- Every operation returns a reduced list. -/
theorem C50_reduced (f g : List Int) (c : Int) :
    Reduced (mk f) ∧ Reduced (add f g) ∧ Reduced (sub f g) ∧ Reduced (neg f) ∧ Reduced (mul f g) ∧
    Reduced (addScalar f c) ∧ Reduced (rsubScalar c f) ∧ Reduced (mulScalar f c) ∧ Reduced (mkScalar c) ∧
    Reduced mkX :=
  ⟨reduced_mk _, reduced_mk _, reduced_mk _, reduced_mk _, reduced_mk _, reduced_mk _, reduced_mk _,
    reduced_mk _, ⟨by simp [mkScalar], by simp [mkScalar]⟩, ⟨by simp [mkX], by simp [mkX]⟩⟩

example : add [1, 2, 3] [4, 5, -3] = [5, 7] ∧ sub [1, 2] [1, 2] = [0] ∧ call [1, 2, 3] 10 = 321 := by
  decide +kernel

end Rosemary.Props
