import Verif.Lemmas.RatPolys
import Mathlib.Algebra.CharZero.Infinite
import Mathlib.Algebra.Polynomial.Roots
import Mathlib.Algebra.Polynomial.Div

/-!
# C144: polynomials with rational coefficients

`toPoly l` is Mathlib's polynomial over the rational numbers with the coefficients `l`.
-/

namespace Rosemary.Props

open Polynomial Rosemary.RatPolys

/-- C144: adding, subtracting, negating and multiplying polynomials, and scalars where the code is right,
commutes with evaluation, for rational coefficients. -/
theorem C144_ring_operations (f g : List ℚ) (c x : ℚ) :
    call (add f g) x = call f x + call g x ∧
    call (sub f g) x = call f x - call g x ∧
    call (neg f) x = -call f x ∧
    call (mul f g) x = call f x * call g x ∧
    call (addScalar f c) x = call f x + c ∧
    call (rsubScalar c f) x = c - call f x ∧
    call (mulScalar f c) x = c * call f x ∧
    call (mk f) x = (f.mapIdx (fun i e => e * x ^ i)).sum ∧ call mkX x = x := by
  have hc : toPoly (mkScalar c) = C c := by simp [mkScalar, toPoly]
  have hadd : ∀ f g, toPoly (add f g) = toPoly f + toPoly g := fun f g => by
    unfold add; rw [toPoly_mk, toPoly_listAdd]
  have hneg : ∀ f, toPoly (neg f) = -toPoly f := fun f => by
    unfold neg; rw [toPoly_mk, toPoly_map_neg]
  simp only [call_eq_eval]
  refine ⟨by rw [hadd, eval_add], ?_, by rw [hneg, eval_neg], by rw [toPoly_mul, eval_mul], ?_, ?_, ?_,
    ?_, by simp [mkX, toPoly]⟩
  · unfold sub; rw [toPoly_mk, toPoly_listSubtract, eval_sub]
  · unfold addScalar; rw [hadd, hc, eval_add, eval_C]
  · unfold rsubScalar addScalar; rw [hadd, hneg, hc, eval_add, eval_C, eval_neg]; ring
  · unfold mulScalar; rw [toPoly_mk, toPoly_map_mul, eval_mul, eval_C]
  · rw [toPoly_mk]
    have key : ∀ (f : List ℚ) (y : ℚ),
        (f.mapIdx (fun i e => e * (y * x ^ i))).sum = y * (toPoly f).eval x := by
      intro f
      induction f with
      | nil => intro y; simp [toPoly]
      | cons a f ih =>
        intro y
        rw [List.mapIdx_cons, List.sum_cons, toPoly, eval_add, eval_C, eval_mul, eval_X]
        have := ih (y * x)
        simp only [mul_assoc, ← pow_succ'] at this
        rw [this]
        ring
    have := key f 1
    simp only [one_mul] at this
    exact this.symm

/-- C144, the missing part for `f - c`: the number is added. -/
theorem C144_sub_scalar_violation (f : List ℚ) (c x : ℚ) : call (subScalar f c) x = call f x + c :=
  (C144_ring_operations f [] c x).2.2.2.2.1

/-- C144: `==` on reduced coefficient lists is equality of the polynomials as functions. -/
theorem C144_equality (f g : List ℚ) (hf : Reduced f) (hg : Reduced g) :
    eq f g = true ↔ ∀ x, call f x = call g x := by
  unfold eq
  rw [beq_iff_eq]
  constructor
  · rintro rfl x; rfl
  · intro h
    apply hf.inj hg
    apply Polynomial.funext
    intro x
    rw [← call_eq_eval, ← call_eq_eval, h x]

/-- C144: every operation returns a reduced list. -/
theorem C144_reduced (f g : List ℚ) (c : ℚ) :
    Reduced (mk f) ∧ Reduced (add f g) ∧ Reduced (sub f g) ∧ Reduced (neg f) ∧ Reduced (mul f g) ∧
    Reduced (addScalar f c) ∧ Reduced (rsubScalar c f) ∧ Reduced (mulScalar f c) ∧ Reduced (mkScalar c) ∧
    Reduced mkX :=
  ⟨reduced_mk _, reduced_mk _, reduced_mk _, reduced_mk _, reduced_mk _, reduced_mk _, reduced_mk _,
    reduced_mk _, ⟨by simp [mkScalar], by simp [mkScalar]⟩, ⟨by simp [mkX], by simp [mkX]⟩⟩

private theorem degree_toPolyQ {v : List ℚ} (hv : Reduced v) (h0 : toPoly v ≠ 0) :
    (toPoly v).degree = ((v.length - 1 : Nat) : WithBot ℕ) ∧ v.getD (v.length - 1) 0 ≠ 0 := by
  have hl : 1 ≤ v.length := by
    have := hv.1
    rcases v with _ | _ <;> simp at *
  have hne : v.getD (v.length - 1) 0 ≠ 0 := by
    by_cases h : v.length > 1
    · exact hv.2 h
    · intro hc
      apply h0
      apply toPoly_ext
      intro i
      by_cases hi : i = 0
      · subst hi
        rw [show v.length - 1 = 0 by omega] at hc
        rw [hc]; simp
      · rw [getD_ge (by omega)]; simp
  refine ⟨?_, hne⟩
  apply degree_eq_of_le_of_coeff_ne_zero
  · rw [degree_le_iff_coeff_zero]
    intro m hm
    have : v.length - 1 < m := by exact_mod_cast hm
    rw [coeff_toPoly, getD_ge (by omega)]
  · rw [coeff_toPoly]; exact hne

/-- C144: `pseudo_quo_rem(u, v) = (q, r)` satisfies `lc(v)^(deg u - deg v + 1) u = q v + r` with
`deg r < deg v` (the exponent is 0 when `deg u < deg v`). -/
theorem C144_pseudo_quo_rem (u v : List ℚ) (hu : Reduced u) (hv : Reduced v) (h0 : toPoly v ≠ 0) :
    C (v.getD (v.length - 1) 0 ^ (u.length + 1 - v.length)) * toPoly u =
      toPoly (pseudoQuoRem u v).1 * toPoly v + toPoly (pseudoQuoRem u v).2 ∧
    (toPoly (pseudoQuoRem u v).2).degree < (toPoly v).degree := by
  obtain ⟨hd, hne⟩ := degree_toPolyQ hv h0
  have hvl : 1 ≤ v.length := by
    have := hv.1
    rcases v with _ | _ <;> simp at *
  have hul : 1 ≤ u.length := by
    have := hu.1
    rcases u with _ | _ <;> simp at *
  rw [hd]
  unfold pseudoQuoRem
  dsimp only
  split
  · rename_i h
    rw [toPoly_mk]
    dsimp only
    rw [show u.length + 1 - v.length = 0 by omega]
    refine ⟨by simp [toPoly], ?_⟩
    rw [degree_lt_iff_coeff_zero]
    intro m hm
    have hm : v.length - 1 ≤ m := by exact_mod_cast hm
    rw [coeff_toPoly, getD_ge (by omega)]
  · rename_i h
    have hs := pseudoLoop_spec (v := v) (n := v.length - 1) (by omega)
      (u.length - 1 - (v.length - 1) + 1) (List.replicate (u.length - 1 - (v.length - 1) + 1) 0) u
      (by simp) (by intro j hj; simp [List.getElem?_replicate]; split <;> rfl) (by omega)
    rw [toPoly_replicate, sub_zero] at hs
    rw [toPoly_mk, toPoly_mk]
    constructor
    · rw [show u.length + 1 - v.length = u.length - 1 - (v.length - 1) + 1 by omega]
      rw [List.take_of_length_le (l := u) (by omega)] at hs
      rw [← hs]; ring
    · rw [degree_lt_iff_coeff_zero]
      intro m hm
      have hm : v.length - 1 ≤ m := by exact_mod_cast hm
      rw [coeff_toPoly, getD_take, if_neg (by omega)]

/-- C144: whenever `quo_rem(a, b) = (q, r)` returns, `a = q b + r`. -/
theorem C144_quo_rem_identity (a b q r : List ℚ) (ha : Reduced a) (hb : Reduced b)
    (h : quoRem a b = .ok (q, r)) : toPoly a = toPoly q * toPoly b + toPoly r := by
  have hbl : 1 ≤ b.length := by
    have := hb.1
    rcases b with _ | _ <;> simp at *
  unfold quoRem at h
  dsimp only at h
  split at h
  · injection h with h
    injection h with h1 h2
    rw [← h1, ← h2, toPoly_mk, toPoly_mk]
    simp [toPoly]
  · split at h
    · exact absurd h (by simp)
    · split at h
      · exact absurd h (by simp)
      · injection h with h
        injection h with h1 h2
        rw [← h1, ← h2, toPoly_mk, toPoly_mk]
        have hs := quoLoop_spec b hbl (b.getD (b.length - 1) 0) (a.length - b.length + 1)
          (List.replicate (a.length - b.length + 1) 0) a (by simp)
          (by intro j hj; simp [List.getElem?_replicate]; split <;> rfl) (by omega)
        rw [toPoly_replicate, sub_zero] at hs
        rw [← hs]; ring

private theorem quo_rem_whole (a b : List ℚ) (hb : Reduced b) (h0 : toPoly b ≠ 0)
    (Q R : ℚ[X]) (he : toPoly a = Q * toPoly b + R) (hR : R.degree < (toPoly b).degree)
    (hZ : ∀ j, Whole (Q.coeff j)) :
    ∃ q r, quoRem a b = .ok (q, r) ∧ toPoly q = Q ∧ toPoly r = R := by
  obtain ⟨hd, hne⟩ := degree_toPolyQ hb h0
  have hbl : 1 ≤ b.length := by
    have := hb.1
    rcases b with _ | _ <;> simp at *
  have hRc : ∀ j, b.length - 1 ≤ j → R.coeff j = 0 := by
    intro j hj
    rw [hd, degree_lt_iff_coeff_zero] at hR
    exact hR j (by exact_mod_cast hj)
  -- the degree of the quotient
  have hQd : ∀ j, a.length + 1 - b.length ≤ j → Q.coeff j = 0 := by
    by_contra hc
    push Not at hc
    obtain ⟨j, hj1, hj2⟩ := hc
    have hQ0 : Q ≠ 0 := by rintro rfl; simp at hj2
    have hj3 : j ≤ Q.natDegree := le_natDegree_of_ne_zero hj2
    have hco : (Q * toPoly b).coeff (Q.natDegree + (b.length - 1)) =
        Q.coeff Q.natDegree * b.getD (b.length - 1) 0 := by
      rw [coeff_mul_add_eq_of_natDegree_le (le_refl _) (natDegree_toPoly_le b), coeff_toPoly]
    have h1 : (toPoly a).coeff (Q.natDegree + (b.length - 1)) = 0 := by
      rw [coeff_toPoly, getD_ge (by omega)]
    rw [he, coeff_add, hRc _ (by omega), add_zero, hco] at h1
    rcases mul_eq_zero.1 h1 with h | h
    · exact hQ0 (leadingCoeff_eq_zero.1 h)
    · exact hne h
  unfold quoRem
  dsimp only
  split
  · rename_i hlt
    have hQ : Q = 0 := by ext j; rw [hQd j (by omega)]; simp
    subst hQ
    refine ⟨_, _, rfl, ?_, ?_⟩
    · rw [toPoly_mk]; simp [toPoly]
    · rw [toPoly_mk, he]; ring
  · rename_i hlt
    have hlead : a.getD (a.length - 1) 0 = b.getD (b.length - 1) 0 * Q.coeff (a.length - b.length) := by
      rw [← coeff_toPoly a, he, coeff_add, hRc _ (by omega), add_zero,
        show a.length - 1 = (a.length - b.length) + (b.length - 1) by omega,
        coeff_mul_add_eq_of_natDegree_le _ (natDegree_toPoly_le b), coeff_toPoly, mul_comm]
      rw [natDegree_le_iff_coeff_eq_zero]
      intro N hN
      exact hQd N (by omega)
    have hmod : floorMod (a.getD (a.length - 1) 0) (b.getD (b.length - 1) 0) = 0 := by
      rw [floorMod, floorDiv_exact hne (hZ _) hlead, hlead, sub_self]
    rw [if_neg (by rw [hmod]; simp)]
    obtain ⟨h1, h2⟩ := quoLoop_exact b hbl hne R hRc (a.length - b.length + 1)
      (List.replicate (a.length - b.length + 1) 0) a Q hZ (fun j hj => hQd j (by omega)) he (by simp)
      (by intro j hj; simp [List.getElem?_replicate]; split <;> rfl) (by omega)
    refine ⟨_, _, rfl, ?_, ?_⟩
    · rw [toPoly_mk, h2, toPoly_replicate, zero_add]
    · rw [toPoly_mk, h1]

/-- C144: let `a = Q b + R` be the division with remainder over the rational numbers.  `quo_rem(a, b)`
returns it exactly if all coefficients of `Q` are integers. -/
theorem C144_quo_rem_partial (a b : List ℚ) (ha : Reduced a) (hb : Reduced b) (h0 : toPoly b ≠ 0)
    (Q R : ℚ[X]) (he : toPoly a = Q * toPoly b + R) (hR : R.degree < (toPoly b).degree) :
    (∃ q r, quoRem a b = .ok (q, r) ∧ toPoly q = Q ∧ toPoly r = R) ↔
      ∀ j, ∃ z : ℤ, Q.coeff j = z := by
  refine ⟨?_, quo_rem_whole a b hb h0 Q R he hR⟩
  rintro ⟨q, r, h, rfl, -⟩ j
  unfold quoRem at h
  dsimp only at h
  split at h
  · injection h with h
    injection h with h1 h2
    refine ⟨0, ?_⟩
    rw [← h1, toPoly_mk]
    simp [toPoly]
  · split at h
    · exact absurd h (by simp)
    · split at h
      · exact absurd h (by simp)
      · injection h with h
        injection h with h1 h2
        rw [← h1, toPoly_mk, coeff_toPoly]
        refine quoLoop_whole b _ _ _ _ (fun j => ?_) j
        rw [List.getD_eq_getElem?_getD, List.getElem?_replicate]
        split <;> exact whole_zero

/-- C144 (violation): `x/2` divided by `x` is refused, although the quotient is `1/2`; `x^2 + x/2`
divided by `x` leaves the remainder `x/2`. -/
theorem C144_quo_rem_violation : quoRem [0, 1 / 2] [0, 1] = .error .valueError ∧
    quoRem [0, 1 / 2, 1] [0, 1] = .ok ([0, 1], [0, 1 / 2]) := by decide +kernel

/-- C144: `power_binary` is right for rational coefficients. -/
theorem C144_power_binary (f : List ℚ) (k : ℕ) : toPoly (powerBinary f k) = toPoly f ^ k :=
  powerBinary_spec f k

/-- C144: `f ** k` never raises for `f ≠ 0`; write `f = x^s B` with `B(0) ≠ 0`: the result is the power
exactly if all coefficients of `B^k` but the constant one are integers. -/
theorem C144_pow_partial (f : List ℚ) (hf : ∃ a ∈ f, a ≠ 0) (k : ℕ) :
    ∃ (P : List ℚ) (s : ℕ) (B : ℚ[X]), RatPolys.pow f k = .ok P ∧ toPoly f = X ^ s * B ∧ B.coeff 0 ≠ 0 ∧
      (toPoly P = toPoly f ^ k ↔ ∀ j, 1 ≤ j → ∃ z : ℤ, (B ^ k).coeff j = z) := by
  obtain ⟨P, s, B, h1, h2, h3, h4⟩ := powerJcp_spec f hf k
  refine ⟨mk P, s, B, ?_, h2, h3, ?_⟩
  · unfold RatPolys.pow
    rw [h1]
  · rw [toPoly_mk]
    exact h4

/-- C144 (violation): `(1 + x/2) ** 2` is `1 + x`, `power_binary` gives `1 + x + x^2/4`. -/
theorem C144_pow_violation : RatPolys.pow [1, 1 / 2] 2 = .ok [1, 1] ∧
    powerBinary [1, 1 / 2] 2 = [1, 1, 1 / 4] := by decide +kernel

example : mul [1 / 2, 1 / 3] [2, 1 / 5] = [1, 23 / 30, 1 / 15] ∧ call [1 / 2, 1 / 3] (3 / 4) = 3 / 4 := by
  decide +kernel
example : quoRem [1 / 2, 0, 1] [1 / 3, 1 / 2] = .ok ([-2, 2], [7 / 6, 1 / 3]) := by decide +kernel

end Rosemary.Props
