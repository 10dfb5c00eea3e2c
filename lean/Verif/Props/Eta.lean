import Verif.Lemmas.Eta
import Verif.Props.Polynomials

/-!
# C81: the eta and delta series
-/

namespace Rosemary.Polys

open Polynomial

theorem coeff_pow_congr {p q : ℤ[X]} {N : Nat} (h : ∀ i, i < N → p.coeff i = q.coeff i) (k : Nat) :
    ∀ i, i < N → (p ^ k).coeff i = (q ^ k).coeff i := by
  induction k with
  | zero => intro i _; simp
  | succ k ih =>
    intro i hi
    rw [pow_succ, pow_succ, coeff_mul, coeff_mul]
    apply Finset.sum_congr rfl
    intro x hx
    rw [Finset.mem_antidiagonal] at hx
    rw [ih x.1 (by omega), h x.2 (by omega)]

end Rosemary.Polys

namespace Rosemary.Props

open Polynomial Rosemary.Polys

/-- C81: `eta_series(prec)` has the first `prec` coefficients of `(1 - x)(1 - x^2)(1 - x^3)...`; the
factors beyond `1 - x^prec` do not matter for them. -/
theorem C81_eta_series (prec : Nat) (h : 1 ≤ prec) :
    ∃ L, etaSeries prec = .ok L ∧ L.length = prec ∧
      ∀ i, i < prec → ∀ N, prec ≤ N →
        L.getD i 0 = (∏ n ∈ Finset.range N, (1 - X ^ (n + 1)) : ℤ[X]).coeff i := by
  obtain ⟨L, h1, h2, h3⟩ := etaSeries_spec prec h
  refine ⟨L, h1, h2, fun i hi N hN => ?_⟩
  rw [h3 i hi, ← eulerProd_coeff_le prec N i (by omega) hN]
  rfl

/-- C81: `delta_series(n)` has the first `n` coefficients of the 24th power of that product. -/
theorem C81_delta_series (prec : Nat) (h : 1 ≤ prec) :
    ∃ L, deltaSeries prec = .ok L ∧ L.length = prec ∧
      ∀ i, i < prec → ∀ N, prec ≤ N →
        L.getD i 0 = ((∏ n ∈ Finset.range N, (1 - X ^ (n + 1)) : ℤ[X]) ^ 24).coeff i := by
  obtain ⟨E, h1, h2, h3⟩ := C81_eta_series prec h
  have h0 : E.getD 0 0 = 1 := by
    rw [h3 0 (by omega) prec (le_refl _), coeff_zero_eq_eval_zero, eval_prod]
    simp
  have h0' : E[0]? = some 1 := by
    rw [List.getD_eq_getElem?_getD, List.getElem?_eq_getElem (by omega)] at h0
    rw [List.getElem?_eq_getElem (by omega)]
    exact congrArg some h0
  obtain ⟨P, p1, p2, p3⟩ := C47_ps_power E 1 h0' (by norm_num) 24
  refine ⟨P, ?_, by omega, fun i hi N hN => ?_⟩
  · unfold deltaSeries
    rw [h1]
    exact p1
  · rw [p3 i (by omega)]
    apply coeff_pow_congr (N := prec) _ 24 i hi
    intro j hj
    rw [coeff_toPoly, h3 j hj N hN]

/-- With precision 0 both raise. -/
theorem C81_zero : etaSeries 0 = .error .indexError ∧ deltaSeries 0 = .error .indexError := ⟨rfl, rfl⟩

example : etaSeries 9 = .ok [1, -1, -1, 0, 0, 1, 0, 1, 0] := by decide +kernel
example : deltaSeries 6 = .ok [1, -24, 252, -1472, 4830, -6048] := by decide +kernel

end Rosemary.Props
