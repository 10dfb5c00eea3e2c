import Verif.Props.Factorization
import Mathlib.Tactic.IntervalCases

/-!
# Properties C135 and C136: what `fermat` and `lehman` find

C135: for odd `n ≥ 5` for which `integer_sqrt(n)` is exact, `fermat(n)` is the largest divisor
of `n` below `sqrt(n)`, or `n`; and `n` is returned exactly for the primes and for the squares of
primes.  So the docstring's "If n == d, then n is proven prime" fails for every square of an odd
prime, and `fermat(3)` is the trivial divisor 1.

C136: `lehman(n)`.  The docstring's "If d == n, then n is proven prime" fails: after aligning the
first candidate `a`, `lehman` stops searching a multiplier `k` when `a*a < 4*k*n`, which happens
when the floor square root is already aligned.  What is proved is that this is the only way in
which a factor is missed, that it needs `n ≥ 32768`, and that the claim holds below.
-/

namespace Rosemary.Props

open Rosemary Rosemary.Core Rosemary.Primality Rosemary.Factorization

/-! ## C135 fermat -/

/-- The square test of `fermat` and `lehman` is exact. -/
theorem integerSqrt_test (c b : Nat) (hb : integerSqrt c = .ok b) : b * b = c ↔ IsSquare c := by
  constructor
  · intro h; exact ⟨b, h.symm⟩
  · rintro ⟨r, rfl⟩
    obtain ⟨s, hs, -, -, h⟩ := integerSqrt_nat (r * r)
    rw [hb] at hs
    cases hs
    rw [h (by rw [Nat.sqrt_eq]), Nat.sqrt_eq]

theorem fermatLoop_first (n a k : Nat) (ha : n < a * a) (hn : 1 ≤ n) :
    (fermatLoop n a k = .ok (n : Int) ∧ ∀ i < k, ¬ IsSquare ((a + i) * (a + i) - n)) ∨
    (∃ i < k, ∃ b, b * b = (a + i) * (a + i) - n ∧ b < a + i ∧
      fermatLoop n a k = .ok ((a + i - b : Nat) : Int) ∧
      ∀ j < i, ¬ IsSquare ((a + j) * (a + j) - n)) := by
  induction k generalizing a with
  | zero => left; exact ⟨rfl, by omega⟩
  | succ k ih =>
    simp only [fermatLoop]
    have hc : (a : Int) * a - n = ((a * a - n : Nat) : Int) := by push_cast [ha.le]; rfl
    rw [hc]
    obtain ⟨b, hb, -, -, -⟩ := integerSqrt_nat (a * a - n)
    have ht := integerSqrt_test _ b hb
    rw [hb]
    simp only
    split
    · rename_i h
      have hbb : b * b = a * a - n := by exact_mod_cast h
      have hba : b < a := by nlinarith [Nat.sub_lt_self (show 0 < n by omega) ha.le]
      right
      exact ⟨0, by omega, b, by simpa using hbb, by omega, by rw [Nat.add_zero, Nat.cast_sub hba.le], by omega⟩
    · rename_i h
      have hns : ¬ IsSquare (a * a - n) := fun hs => h (by exact_mod_cast ht.2 hs)
      rcases ih (a + 1) (by nlinarith) with ⟨h1, h2⟩ | ⟨i, hi, b', h1, h2, h3, h4⟩
      · left
        refine ⟨h1, fun i hi => ?_⟩
        cases i with
        | zero => simpa using hns
        | succ i => have := h2 i (by omega); rwa [show a + 1 + i = a + (i + 1) by omega] at this
      · right
        refine ⟨i + 1, by omega, b', ?_, by omega, ?_, fun j hj => ?_⟩
        · rw [h1, show a + 1 + i = a + (i + 1) by omega]
        · rw [h3, show a + 1 + i = a + (i + 1) by omega]
        · cases j with
          | zero => simpa using hns
          | succ j => have := h4 j (by omega); rwa [show a + 1 + j = a + (j + 1) by omega] at this

/-- A divisor `e > 1` of odd `n` below the square root is met by the loop of `fermat`. -/
theorem fermat_candidate (n e : Nat) (hodd : n % 2 = 1) (he : e ∣ n) (he1 : 1 < e) (hlt : e * e < n) :
    ∃ A, n.sqrt + 1 ≤ A ∧ A < (n + 9) / 6 + 1 ∧ IsSquare (A * A - n) ∧ 2 * A * e = e * e + n := by
  obtain ⟨f, rfl⟩ := he
  have hef : e < f := lt_of_mul_lt_mul_left hlt (Nat.zero_le e)
  have heo : e % 2 = 1 := by
    have := Nat.odd_mul.1 (Nat.odd_iff.2 hodd); exact Nat.odd_iff.1 this.1
  have hfo : f % 2 = 1 := by
    have := Nat.odd_mul.1 (Nat.odd_iff.2 hodd); exact Nat.odd_iff.1 this.2
  obtain ⟨x, rfl⟩ : ∃ x, e = 2 * x + 1 := ⟨e / 2, by omega⟩
  obtain ⟨y, rfl⟩ : ∃ y, f = 2 * y + 1 := ⟨f / 2, by omega⟩
  obtain ⟨z, rfl⟩ : ∃ z, y = x + 1 + z := ⟨y - x - 1, by omega⟩
  have hA : (x + (x + 1 + z) + 1) * (x + (x + 1 + z) + 1) =
      (2 * x + 1) * (2 * (x + 1 + z) + 1) + (z + 1) * (z + 1) := by ring
  refine ⟨x + (x + 1 + z) + 1, ?_, ?_, ?_, ?_⟩
  · rw [Nat.succ_le_iff, Nat.sqrt_lt]
    rw [hA]; nlinarith
  · have h6 : 6 * (x + (x + 1 + z) + 1) ≤ (2 * x + 1) * (2 * (x + 1 + z) + 1) + 9 := by
      obtain ⟨w, rfl⟩ : ∃ w, x = w + 1 := ⟨x - 1, by omega⟩
      nlinarith [Nat.zero_le (w * z), Nat.zero_le (w * w)]
    omega
  · rw [hA]
    exact ⟨z + 1, by omega⟩
  · ring

/-- C135: for odd `n ≥ 5` with exact `integer_sqrt(n)`, `fermat(n)` is the largest divisor of `n`
below its square root, when there is one greater than 1, and `n` otherwise, that is, when `n` is a
prime or the square of a prime. -/
theorem C135_fermat_partial (n : Nat) (hn : 5 ≤ n) (hodd : n % 2 = 1)
    (hs : n < 4503599761588224 ∨ 2 ^ 60 < n) :
    ∃ d : Nat, fermat n = .ok (d : Int) ∧
      ((1 < d ∧ d ∣ n ∧ d * d < n ∧ ∀ e, e ∣ n → e * e < n → e ≤ d) ∨
       (d = n ∧ (n.Prime ∨ ∃ p, p.Prime ∧ n = p * p))) := by
  unfold fermat
  rw [if_neg (by omega)]
  obtain ⟨s, hs1, hs2, hs3⟩ := C09_integer_sqrt_partial n (by omega) (by omega)
  rw [hs1]
  simp only
  have hsq : s = n.sqrt := by
    rw [Nat.eq_sqrt']
    exact ⟨by exact_mod_cast hs2, by exact_mod_cast hs3⟩
  subst hsq
  rcases fermatLoop_first n (n.sqrt + 1) ((n + 9) / 6 + 1 - (n.sqrt + 1)) (Nat.lt_succ_sqrt n)
    (by omega) with ⟨h1, h2⟩ | ⟨i, hi, b, h1, h2, h3, h4⟩
  · refine ⟨n, h1, Or.inr ⟨rfl, ?_⟩⟩
    by_contra hc
    rw [not_or] at hc
    have hp := Nat.minFac_prime (show n ≠ 1 by omega)
    have h5 := Nat.minFac_sq_le_self (by omega) hc.1
    have h6 : n.minFac * n.minFac ≠ n := fun h => hc.2 ⟨_, hp, h.symm⟩
    obtain ⟨A, ha1, ha2, ha3, -⟩ := fermat_candidate n n.minFac hodd (Nat.minFac_dvd n) hp.one_lt
      (by rw [sq] at h5; omega)
    apply h2 (A - (n.sqrt + 1)) (by omega)
    rwa [show n.sqrt + 1 + (A - (n.sqrt + 1)) = A by omega]
  · obtain ⟨A, hA⟩ : ∃ A, A = n.sqrt + 1 + i := ⟨_, rfl⟩
    rw [← hA] at h1 h2 h3
    have hAn : n < A * A := by
      have := Nat.lt_succ_sqrt n
      have : (n.sqrt + 1) * (n.sqrt + 1) ≤ A * A := Nat.mul_le_mul (by omega) (by omega)
      exact lt_of_lt_of_le (Nat.lt_succ_sqrt n) this
    obtain ⟨d, hd⟩ : ∃ d, A = b + d := ⟨A - b, by omega⟩
    have hmul : n = d * (2 * b + d) := by
      have h7 : A * A = d * (2 * b + d) + b * b := by rw [hd]; ring
      omega
    have hdA : A - b = d := by omega
    rw [hdA] at h3
    have hd1 : 1 < d := by
      by_contra hc
      have : d = 1 := by omega
      subst this
      have : 6 * A ≤ n + 9 := by omega
      omega
    have hb0 : 0 < b := by
      rcases Nat.eq_zero_or_pos b with rfl | h
      · exfalso
        simp only [mul_zero, zero_add] at hmul hd
        rw [hd, ← hmul] at hAn; omega
      · exact h
    refine ⟨d, h3, Or.inl ⟨hd1, ⟨_, hmul⟩, by nlinarith, fun e he hlt => ?_⟩⟩
    by_contra hc
    rw [not_le] at hc
    obtain ⟨A', ha1, ha2, ha3, ha4⟩ := fermat_candidate n e hodd he (by omega) hlt
    have hlt' : A' < A := by
      by_contra hge
      rw [not_lt] at hge
      -- 2 A e ≤ 2 A' e = e² + n, but the roots of x² - 2 A x + n are d and 2 b + d
      have h8 : 2 * A * e ≤ e * e + n := by rw [← ha4]; exact Nat.mul_le_mul (by omega) le_rfl
      have h9 : e < 2 * b + d := by
        by_contra h10
        rw [not_lt] at h10
        have : d * (2 * b + d) ≤ e * e := Nat.mul_le_mul hc.le h10
        omega
      obtain ⟨x, rfl⟩ : ∃ x, e = d + 1 + x := ⟨e - d - 1, by omega⟩
      obtain ⟨y, hy⟩ : ∃ y, 2 * b + d = (d + 1 + x) + 1 + y := ⟨2 * b + d - (d + 1 + x) - 1, by omega⟩
      have h2A : 2 * A = d + ((d + 1 + x) + 1 + y) := by omega
      rw [h2A, hmul, hy] at h8
      nlinarith [Nat.zero_le (x * y)]
    apply h4 (A' - (n.sqrt + 1)) (by omega)
    rwa [show n.sqrt + 1 + (A' - (n.sqrt + 1)) = A' by omega]

/-- C135: `fermat(n) = 2` for even `n`. -/
theorem C135_fermat_even (n : Nat) (h : n % 2 = 0) : fermat n = .ok 2 := by
  unfold fermat; rw [if_pos h]

/-- C135: the docstring's claim that `n` is prime when `n` is returned fails for the square of
every odd prime (within the range of the exact square root). -/
theorem C135_fermat_violation (p : Nat) (hp : p.Prime) (h2 : p ≠ 2)
    (hs : p * p < 4503599761588224 ∨ 2 ^ 60 < p * p) :
    fermat (p * p) = .ok ((p * p : Nat) : Int) ∧ ¬ (p * p).Prime := by
  have h3 : 3 ≤ p := by have := hp.two_le; omega
  have hodd : p % 2 = 1 := by rcases hp.eq_two_or_odd with h | h <;> omega
  have hnp : ¬ (p * p).Prime := Nat.not_prime_mul (by omega) (by omega)
  refine ⟨?_, hnp⟩
  obtain ⟨d, h, h1 | ⟨rfl, -⟩⟩ := C135_fermat_partial (p * p) (by nlinarith) (by rw [Nat.mul_mod, hodd]) hs
  · exfalso
    obtain ⟨ha, hb, hc, -⟩ := h1
    rw [← sq, Nat.dvd_prime_pow hp] at hb
    obtain ⟨k, hk, rfl⟩ := hb
    interval_cases k
    · simp at ha
    · simp at hc
    · have : p * p < p ^ 2 * p ^ 2 := by nlinarith [Nat.mul_le_mul h3 h3]
      omega
  · exact h

/-- C135: `fermat(3)` is 1, neither 3 nor a nontrivial divisor. -/
theorem C135_fermat_three : fermat 3 = .ok 1 := by decide +kernel

example : fermat 105 = .ok 7 ∧ fermat 101 = .ok 101 ∧ fermat 49 = .ok 49 := by decide +kernel

/-! ## C136 lehman -/

/-- The Euclidean descent behind Lehman's theorem: between two fractions `u1/v1 ≤ q/p ≤ u2/v2`
with `u2*v1 - u1*v2 = 1` there is a fraction `u/v` with `u*v ≤ B` and
`(B+1) * |p*u - q*v|² ≤ p*q`. -/
theorem lehman_descent (p q B : Nat) (t : Nat) : ∀ u1 v1 u2 v2 δ1 δ2 : Nat,
    B + 1 - (u1 + u2) * (v1 + v2) < t →
    1 ≤ u1 → 1 ≤ v1 → 1 ≤ u2 → 1 ≤ v2 → u2 * v1 = u1 * v2 + 1 →
    q * v1 = p * u1 + δ1 → p * u2 = q * v2 + δ2 →
    v2 * δ1 + v1 * δ2 = p → u2 * δ1 + u1 * δ2 = q → u1 * v1 ≤ B → u2 * v2 ≤ B →
    ∃ u v δ, 1 ≤ u ∧ 1 ≤ v ∧ ¬ (u % 2 = 0 ∧ v % 2 = 0) ∧ u * v ≤ B ∧
      (q * v = p * u + δ ∨ p * u = q * v + δ) ∧ δ * δ * (B + 1) ≤ p * q := by
  induction t with
  | zero => intros; omega
  | succ t ih =>
    intro u1 v1 u2 v2 δ1 δ2 ht hu1 hv1 hu2 hv2 hdet h1 h2 hp hq hb1 hb2
    by_cases hm : (u1 + u2) * (v1 + v2) ≤ B
    · rcases le_total δ2 δ1 with hle | hle
      · obtain ⟨δ, rfl⟩ : ∃ δ, δ1 = δ2 + δ := ⟨δ1 - δ2, by omega⟩
        refine ih (u1 + u2) (v1 + v2) u2 v2 δ δ2 ?_ (by omega) (by omega) hu2 hv2 (by linarith)
          (by linarith) h2 (by linarith) (by linarith) hm hb2
        have : (u1 + u2) * (v1 + v2) < (u1 + u2 + u2) * (v1 + v2 + v2) := by nlinarith
        omega
      · obtain ⟨δ, rfl⟩ : ∃ δ, δ2 = δ1 + δ := ⟨δ2 - δ1, by omega⟩
        refine ih u1 v1 (u1 + u2) (v1 + v2) δ1 δ ?_ hu1 hv1 (by omega) (by omega) (by linarith)
          h1 (by linarith) (by linarith) (by linarith) hb1 hm
        have : (u1 + u2) * (v1 + v2) < (u1 + (u1 + u2)) * (v1 + (v1 + v2)) := by nlinarith
        omega
    · rw [not_le] at hm
      have hpq : p * q = (v2 * δ1 + v1 * δ2) * (u2 * δ1 + u1 * δ2) := by rw [hp, hq]
      have key : ∀ δ, δ ≤ δ1 → δ ≤ δ2 → δ * δ * (B + 1) ≤ p * q := by
        intro δ ha hb
        calc δ * δ * (B + 1) ≤ δ * δ * ((u1 + u2) * (v1 + v2)) := Nat.mul_le_mul le_rfl hm
          _ = (v2 * δ + v1 * δ) * (u2 * δ + u1 * δ) := by ring
          _ ≤ _ := by
            rw [hpq]
            exact Nat.mul_le_mul
              (Nat.add_le_add (Nat.mul_le_mul le_rfl ha) (Nat.mul_le_mul le_rfl hb))
              (Nat.add_le_add (Nat.mul_le_mul le_rfl ha) (Nat.mul_le_mul le_rfl hb))
      rcases le_total δ2 δ1 with hle | hle
      · refine ⟨u2, v2, δ2, hu2, hv2, ?_, hb2, Or.inr h2, key δ2 hle le_rfl⟩
        rintro ⟨ha, hb⟩
        have h3 := congrArg (· % 2) hdet
        simp [Nat.add_mod, Nat.mul_mod, ha, hb] at h3
      · refine ⟨u1, v1, δ1, hu1, hv1, ?_, hb1, Or.inl h1, key δ1 le_rfl hle⟩
        rintro ⟨ha, hb⟩
        have h3 := congrArg (· % 2) hdet
        simp [Nat.add_mod, Nat.mul_mod, ha, hb] at h3

/-- Lehman's approximation: if `p ≤ q`, and `p, q > B`, `p*q < (B+1)^3`, some `u, v ≥ 1`, not
both even, have `u*v ≤ B` and `|p*u - q*v| ≤ B`. -/
theorem lehman_approx (p q B : Nat) (hB : 1 ≤ B) (hp : B < p) (hpq : p ≤ q)
    (hn : p * q < (B + 1) ^ 3) :
    ∃ u v δ, 1 ≤ u ∧ 1 ≤ v ∧ ¬ (u % 2 = 0 ∧ v % 2 = 0) ∧ u * v ≤ B ∧
      (q * v = p * u + δ ∨ p * u = q * v + δ) ∧ δ ≤ B := by
  have key : ∃ u v δ, 1 ≤ u ∧ 1 ≤ v ∧ ¬ (u % 2 = 0 ∧ v % 2 = 0) ∧ u * v ≤ B ∧
      (q * v = p * u + δ ∨ p * u = q * v + δ) ∧ δ * δ * (B + 1) ≤ p * q := by
    obtain ⟨f, δ1, hq, hδ⟩ : ∃ f δ1, q = p * f + δ1 ∧ δ1 < p :=
      ⟨q / p, q % p, (Nat.div_add_mod q p).symm, Nat.mod_lt _ (by omega)⟩
    have hf1 : 1 ≤ f := by
      rcases Nat.eq_zero_or_pos f with rfl | h
      · simp at hq; omega
      · exact h
    have hfB : f ≤ B := by
      by_contra hc
      rw [not_le] at hc
      have h1 : (B + 1) * (B + 1) ≤ q := by
        rw [hq]; exact (Nat.mul_le_mul hp hc).trans (Nat.le_add_right _ _)
      have h2 : (B + 1) * ((B + 1) * (B + 1)) ≤ p * q := Nat.mul_le_mul hp h1
      have h3 : (B + 1) ^ 3 = (B + 1) * ((B + 1) * (B + 1)) := by ring
      omega
    by_cases hf : f + 1 ≤ B
    · obtain ⟨δ2, hδ2⟩ : ∃ δ2, p = δ1 + δ2 := ⟨p - δ1, by omega⟩
      refine lehman_descent p q B _ f 1 (f + 1) 1 δ1 δ2 (Nat.lt_succ_self _) hf1 le_rfl (by omega)
        le_rfl (by ring) (by linarith) ?_ (by linarith) ?_ (by linarith) (by linarith)
      · rw [hq]; conv_lhs => rw [mul_add, mul_one]
        omega
      · rw [hq]
        have : p * f = δ1 * f + δ2 * f := by rw [← add_mul, ← hδ2]
        rw [this]; ring
    · have : f = B := by omega
      subst this
      refine ⟨f, 1, δ1, hf1, le_rfl, by omega, by omega, Or.inl (by linarith), ?_⟩
      have h1 : δ1 * δ1 ≤ p * δ1 := Nat.mul_le_mul hδ.le le_rfl
      have h2 : δ1 * δ1 ≤ p * p := Nat.mul_le_mul hδ.le hδ.le
      have h3 : p * q = p * p * f + p * δ1 := by rw [hq]; ring
      rw [h3, mul_add, mul_one]
      exact Nat.add_le_add (Nat.mul_le_mul h2 le_rfl) h1
  obtain ⟨u, v, δ, h1, h2, h3, h4, h5, h6⟩ := key
  refine ⟨u, v, δ, h1, h2, h3, h4, h5, ?_⟩
  by_contra hc
  rw [not_le] at hc
  have h7 : (B + 1) * (B + 1) * (B + 1) ≤ δ * δ * (B + 1) :=
    Nat.mul_le_mul (Nat.mul_le_mul hc hc) le_rfl
  have h8 : (B + 1) ^ 3 = (B + 1) * (B + 1) * (B + 1) := by ring
  omega

theorem lehmanAlign_spec (m rm : Nat) (hr : rm < m) : ∀ fuel a, (∃ j ≤ fuel, (a + j) % m = rm) →
    a ≤ lehmanAlign m rm fuel a ∧ lehmanAlign m rm fuel a % m = rm ∧
      ∀ x, a ≤ x → x % m = rm → lehmanAlign m rm fuel a ≤ x := by
  intro fuel
  induction fuel with
  | zero =>
    rintro a ⟨j, hj, h⟩
    have : j = 0 := by omega
    subst this
    exact ⟨le_rfl, h, fun x hx _ => hx⟩
  | succ fuel ih =>
    rintro a ⟨j, hj, h⟩
    simp only [lehmanAlign]
    by_cases ha : a % m = rm
    · rw [if_neg (by simpa using ha)]
      exact ⟨le_rfl, ha, fun x hx _ => hx⟩
    · rw [if_pos ha]
      have hj0 : j ≠ 0 := by rintro rfl; exact ha h
      obtain ⟨h1, h2, h3⟩ := ih (a + 1) ⟨j - 1, by omega, by
        rwa [show a + 1 + (j - 1) = a + j by omega]⟩
      refine ⟨by omega, h2, fun x hx hxm => h3 x ?_ hxm⟩
      rcases Nat.eq_or_lt_of_le hx with rfl | h4
      · exact absurd hxm ha
      · exact h4

theorem align_exists (m rm a : Nat) (hr : rm < m) : ∃ j ≤ m, (a + j) % m = rm := by
  have h0 := Nat.mod_lt a (show 0 < m by omega)
  by_cases h : a % m ≤ rm
  · refine ⟨rm - a % m, by omega, ?_⟩
    rw [Nat.add_mod, Nat.mod_eq_of_lt (show rm - a % m < m by omega),
      show a % m + (rm - a % m) = rm by omega, Nat.mod_eq_of_lt hr]
  · refine ⟨rm + m - a % m, by omega, ?_⟩
    rw [Nat.add_mod, Nat.mod_eq_of_lt (show rm + m - a % m < m by omega),
      show a % m + (rm + m - a % m) = rm + m by omega, Nat.add_mod_right, Nat.mod_eq_of_lt hr]

/-- The inner loop of `lehman` stops with a factor when one lies ahead of an admissible start. -/
theorem lehmanInner_finds (n fkn ub m : Nat) (hm : 0 < m) (x : Nat) :
    ∀ a, fkn ≤ x * x → x ≤ a → a % m = x % m → a * a ≤ ub → IsSquare (a * a - fkn) →
      ∃ d, lehmanInner n fkn ub m hm x = .ok (some d) := by
  fun_induction lehmanInner n fkn ub m hm x with
  | case1 x h c e he =>
    obtain ⟨b, hb, -⟩ := integerSqrt_nat c
    rw [hb] at he; cases he
  | case2 x h c b hb hbb => intros; exact ⟨_, rfl⟩
  | case3 x h c b hb hbb ih =>
    intro a h1 h2 h3 h4 h5
    have hne : a ≠ x := by
      rintro rfl
      exact hbb ((integerSqrt_test c b hb).2 h5)
    have hxa : x + m ≤ a := by
      obtain ⟨t, ht⟩ := (Nat.modEq_iff_dvd' h2).1 h3.symm
      have : 1 ≤ t := by
        rcases Nat.eq_zero_or_pos t with rfl | h
        · omega
        · exact h
      have : m * 1 ≤ m * t := Nat.mul_le_mul le_rfl this
      omega
    exact ih a (by nlinarith) hxa (by rw [h3, Nat.add_mod_right]) h4 h5
  | case4 x h =>
    intro a h1 h2 h3 h4 h5
    exact absurd ⟨h1, (Nat.mul_le_mul h2 h2).trans h4⟩ h

theorem lehmanInner_found (n fkn ub m : Nat) (hm : 0 < m) (x : Nat) (d : Int)
    (hd : lehmanInner n fkn ub m hm x = .ok (some d)) :
    ∃ a b : Nat, fkn ≤ a * a ∧ a * a ≤ ub ∧ b * b = a * a - fkn ∧ d = Core.gcd (a + b) n := by
  fun_induction lehmanInner n fkn ub m hm x with
  | case1 x h c e he => cases hd
  | case2 x h c b hb hbb => cases hd; exact ⟨x, b, h.1, h.2, hbb, rfl⟩
  | case3 x h c b hb hbb ih => exact ih hd
  | case4 x h => cases hd

/-- A factor found by the inner loop of `lehman` is proper. -/
theorem lehman_proper (n B k a b : Nat) (hn : 13 ≤ n) (hB : B ^ 3 ≤ n) (hk1 : 1 ≤ k) (hk : k ≤ B)
    (h1 : 4 * k * n ≤ a * a) (h2 : a * a ≤ 4 * k * n + B ^ 2) (hb : b * b = a * a - 4 * k * n) :
    ∃ d : Nat, Core.gcd ((a : Int) + b) n = (d : Int) ∧ d ∣ n ∧ 1 < d ∧ d < n := by
  have hbB : b ≤ B := by
    have : b * b ≤ B * B := by rw [hb, ← sq B]; omega
    exact Nat.mul_self_le_mul_self_iff.1 this
  have hB6 : 6 * B < n := by
    rcases Nat.lt_or_ge B 3 with h | h
    · omega
    · have : B ^ 3 = B * B * B := by ring
      nlinarith
  have hab : a + b < n := by
    by_contra hc
    rw [not_lt] at hc
    obtain ⟨x, rfl⟩ : ∃ x, n = B + x := ⟨n - B, by omega⟩
    have h3 : x ≤ a := by omega
    have h4 : x * x ≤ a * a := Nat.mul_le_mul h3 h3
    have h5 : 4 * k * (B + x) ≤ 4 * B * (B + x) := by
      apply Nat.mul_le_mul _ le_rfl; omega
    have h6 : x * x ≤ 4 * B * (B + x) + B ^ 2 := by omega
    have h7 : 5 * B + 1 ≤ x := by omega
    have h8 : (5 * B + 1) * x ≤ x * x := Nat.mul_le_mul h7 le_rfl
    nlinarith
  have hba : b < a := by
    have : b * b < a * a := by
      rw [hb]; apply Nat.sub_lt_self _ h1
      have : 1 * 1 ≤ k * n := Nat.mul_le_mul hk1 (by omega)
      have : 4 * k * n = 4 * (k * n) := by ring
      omega
    exact Nat.mul_self_lt_mul_self_iff.1 this
  refine ⟨Nat.gcd (a + b) n, ?_, Nat.gcd_dvd_right _ _, ?_, ?_⟩
  · rw [gcd_eq]; congr 1
  · by_contra hc
    have h0 : 0 < Nat.gcd (a + b) n := Nat.gcd_pos_of_pos_right _ (by omega)
    have h3 : Nat.Coprime (a + b) n := by unfold Nat.Coprime; omega
    have h4 : n ∣ (a + b) * (a - b) := by
      refine ⟨4 * k, ?_⟩
      rw [← Nat.mul_self_sub_mul_self_eq, hb]
      have : n * (4 * k) = 4 * k * n := by ring
      omega
    have h5 := Nat.le_of_dvd (by omega) (h3.symm.dvd_of_dvd_mul_left h4)
    omega
  · exact lt_of_le_of_lt (Nat.le_of_dvd (by omega) (Nat.gcd_dvd_left _ _)) hab

/-- Modulus and residue of the candidates for the multiplier `k`. -/
def lehMod (k : Nat) : Nat := if k % 2 = 0 then 2 else 4

def lehRes (n k : Nat) : Nat := if k % 2 = 0 then 1 else k + n

/-- The multiplier `k` is skipped by mistake: the floor square root of `4kn` is itself a candidate
modulo `lehMod k`, so that the loop ends at once, although the next candidate is in range. -/
def Skipped (n B k : Nat) : Prop :=
  ∃ s, s * s < 4 * k * n ∧ 4 * k * n < (s + 1) * (s + 1) ∧ s % lehMod k = lehRes n k % lehMod k ∧
    (s + lehMod k) * (s + lehMod k) ≤ 4 * k * n + B ^ 2

theorem lehmanLoop_some (n B k j s : Nat) (hs : integerSqrt (4 * k * n : Nat) = .ok s)
    (hm0 : 0 < lehMod k) (d : Int)
    (h : lehmanInner n (4 * k * n) (4 * k * n + B ^ 2) (lehMod k) hm0
      (lehmanAlign (lehMod k) (lehRes n k % lehMod k) (lehMod k) s) = .ok (some d)) :
    lehmanLoop n B k (j + 1) = .ok d := by
  simp only [lehmanLoop]
  rw [hs]
  simp only
  have e : lehmanInner n (4 * k * n) (4 * k * n + B ^ 2) (if k % 2 = 0 then 2 else 4)
      hm0 (lehmanAlign (if k % 2 = 0 then 2 else 4)
        ((if k % 2 = 0 then 1 else k + n) % (if k % 2 = 0 then 2 else 4))
        (if k % 2 = 0 then 2 else 4) s) = .ok (some d) := h
  rw [e]

theorem lehmanLoop_none (n B k j s : Nat) (hs : integerSqrt (4 * k * n : Nat) = .ok s)
    (hm0 : 0 < lehMod k)
    (h : lehmanInner n (4 * k * n) (4 * k * n + B ^ 2) (lehMod k) hm0
      (lehmanAlign (lehMod k) (lehRes n k % lehMod k) (lehMod k) s) = .ok none) :
    lehmanLoop n B k (j + 1) = lehmanLoop n B (k + 1) j := by
  simp only [lehmanLoop]
  rw [hs]
  simp only
  have e : lehmanInner n (4 * k * n) (4 * k * n + B ^ 2) (if k % 2 = 0 then 2 else 4)
      hm0 (lehmanAlign (if k % 2 = 0 then 2 else 4)
        ((if k % 2 = 0 then 1 else k + n) % (if k % 2 = 0 then 2 else 4))
        (if k % 2 = 0 then 2 else 4) s) = .ok none := h
  rw [e]

theorem lehmanLoop_complete (n B : Nat) (hn : 13 ≤ n) (hB : B ^ 3 ≤ n) : ∀ j k, 1 ≤ k → k + j ≤ B + 1 →
    (∃ d : Nat, lehmanLoop n B k j = .ok (d : Int) ∧ d ∣ n ∧ 1 < d ∧ d < n) ∨
    (lehmanLoop n B k j = .ok (n : Int) ∧ ∀ k', k ≤ k' → k' < k + j → ∀ a, 4 * k' * n ≤ a * a →
      a * a ≤ 4 * k' * n + B ^ 2 → a % lehMod k' = lehRes n k' % lehMod k' →
      IsSquare (a * a - 4 * k' * n) → Skipped n B k') := by
  intro j
  induction j with
  | zero => intro k _ _; right; exact ⟨rfl, fun k' h1 h2 => by omega⟩
  | succ j ih =>
    intro k hk hkj
    obtain ⟨s, hs, hs1, hs2, hs3⟩ := integerSqrt_nat (4 * k * n)
    have hm0 : 0 < lehMod k := by unfold lehMod; split <;> omega
    have hr := Nat.mod_lt (lehRes n k) hm0
    obtain ⟨ha1, ha2, ha3⟩ := lehmanAlign_spec (lehMod k) (lehRes n k % lehMod k) hr (lehMod k) s
      (align_exists _ _ s hr)
    generalize hx : lehmanAlign (lehMod k) (lehRes n k % lehMod k) (lehMod k) s = x at *
    rcases lehmanInner_dvd n (4 * k * n) (4 * k * n + B ^ 2) (lehMod k) hm0 x with ⟨d, h1, h2⟩ | h1
    · left
      obtain ⟨a, b, hb1, hb2, hb3, hb4⟩ := lehmanInner_found _ _ _ _ _ _ _ h1
      obtain ⟨d', hd', h3⟩ := lehman_proper n B k a b hn hB hk (by omega) hb1 hb2 hb3
      refine ⟨d', ?_, h3⟩
      rw [← hx] at h1
      rw [lehmanLoop_some n B k j s hs hm0 _ h1, hb4, hd']
    · have h1' := h1
      rw [← hx] at h1'
      rw [lehmanLoop_none n B k j s hs hm0 h1']
      rcases ih (k + 1) (by omega) (by omega) with ⟨d, h2⟩ | ⟨h2, h3⟩
      · left; exact ⟨d, h2⟩
      · right
        refine ⟨h2, fun k' hk1 hk2 a hb1 hb2 hb3 hb4 => ?_⟩
        rcases Nat.eq_or_lt_of_le hk1 with rfl | hlt
        · -- the current multiplier
          have hxa : x ≤ a := by
            refine ha3 a ?_ hb3
            rcases Nat.lt_or_ge a s with h | h
            · exfalso
              have h4 : (4 * k * n).sqrt ≤ a := by
                have := Nat.sqrt_le_sqrt hb1
                rwa [Nat.sqrt_eq] at this
              have h5 : s = (4 * k * n).sqrt + 1 := by omega
              have h6 : a = (4 * k * n).sqrt := by omega
              have h7 := Nat.sqrt_le (4 * k * n)
              rw [← h6] at h7
              have h8 := hs3 (by rw [← h6]; omega)
              omega
            · exact h
          have hlt : x * x < 4 * k * n := by
            by_contra hc
            rw [not_lt] at hc
            obtain ⟨d, hd⟩ := lehmanInner_finds n (4 * k * n) (4 * k * n + B ^ 2) (lehMod k) hm0 x a
              hc hxa (by rw [hb3, ha2]) hb2 hb4
            rw [h1] at hd
            cases hd
          have h9 := Nat.lt_succ_sqrt (4 * k * n)
          have hxs : x = (4 * k * n).sqrt := by
            have h4 : x ≤ (4 * k * n).sqrt := Nat.le_sqrt.2 hlt.le
            omega
          refine ⟨x, hlt, by rw [hxs]; exact h9, ha2, ?_⟩
          have hxa' : x + lehMod k ≤ a := by
            obtain ⟨t, ht⟩ := (Nat.modEq_iff_dvd' hxa).1 (show x % lehMod k = a % lehMod k by
              rw [hb3, ha2])
            have : 1 ≤ t := by
              rcases Nat.eq_zero_or_pos t with rfl | h
              · have : a = x := by omega
                subst this; omega
              · exact h
            have : lehMod k * 1 ≤ lehMod k * t := Nat.mul_le_mul le_rfl this
            omega
          exact (Nat.mul_le_mul hxa' hxa').trans hb2
        · exact h3 k' hlt (by omega) a hb1 hb2 hb3 hb4

/-- Lehman's theorem: a product of two primes above the cube root has a multiplier. -/
theorem lehman_theorem (n B : Nat) (hB2 : 2 ≤ B) (hB1 : B ^ 3 ≤ n) (hB : n < (B + 1) ^ 3)
    (hnp : ¬ n.Prime) (hfac : B < n.minFac) :
    ∃ k a, 1 ≤ k ∧ k ≤ B ∧ 4 * k * n ≤ a * a ∧ a * a ≤ 4 * k * n + B ^ 2 ∧
      a % lehMod k = lehRes n k % lehMod k ∧ IsSquare (a * a - 4 * k * n) := by
  have hn1 : n ≠ 1 := by
    rintro rfl
    have : 2 ^ 3 ≤ B ^ 3 := Nat.pow_le_pow_left hB2 3
    omega
  have hpp := Nat.minFac_prime hn1
  have hodd : n % 2 = 1 := by
    by_contra hc
    have : n.minFac ≤ 2 := Nat.minFac_le_of_dvd le_rfl (Nat.dvd_of_mod_eq_zero (by omega))
    omega
  obtain ⟨q, hq⟩ := Nat.minFac_dvd n
  have hpq : n.minFac ≤ q := by
    have h1 := Nat.minFac_sq_le_self (by omega) hnp
    have h2 : n.minFac * n.minFac ≤ n.minFac * q := by rw [← hq, ← sq]; exact h1
    exact Nat.le_of_mul_le_mul_left h2 hpp.pos
  generalize n.minFac = p at *
  subst hq
  obtain ⟨u, v, δ, hu, hv, huv, hk, hδ, hδB⟩ := lehman_approx p q B (by omega) hfac hpq hB
  obtain ⟨hp2, hq2⟩ := Nat.odd_mul.1 (Nat.odd_iff.2 hodd)
  rw [Nat.odd_iff] at hp2 hq2
  have hsq : (p * u + q * v) * (p * u + q * v) = 4 * (u * v) * (p * q) + δ * δ := by
    rcases hδ with h | h
    · rw [h]
      have : 4 * (u * v) * (p * q) = 4 * (p * u) * (q * v) := by ring
      rw [this, h]; ring
    · rw [h]
      have : 4 * (u * v) * (p * q) = 4 * (p * u) * (q * v) := by ring
      rw [this, h]; ring
  refine ⟨u * v, p * u + q * v, Nat.mul_pos hu hv, hk, by omega, ?_, ?_, ?_⟩
  · rw [hsq, sq]
    exact Nat.add_le_add_left (Nat.mul_le_mul hδB hδB) _
  · unfold lehMod lehRes
    split
    · rename_i he
      have : u % 2 = 0 ∧ v % 2 = 1 ∨ u % 2 = 1 ∧ v % 2 = 0 := by
        rcases Nat.even_mul.1 (Nat.even_iff.2 he) with h | h
        · rw [Nat.even_iff] at h; omega
        · rw [Nat.even_iff] at h; omega
      rcases this with ⟨h1, h2⟩ | ⟨h1, h2⟩ <;> simp [Nat.add_mod, Nat.mul_mod, hp2, hq2, h1, h2]
    · rename_i he
      obtain ⟨h1, h2⟩ := Nat.odd_mul.1 (Nat.odd_iff.2 (show u * v % 2 = 1 by omega))
      rw [Nat.odd_iff] at h1 h2
      have e1 : u % 4 = 1 ∨ u % 4 = 3 := by omega
      have e2 : v % 4 = 1 ∨ v % 4 = 3 := by omega
      have e3 : p % 4 = 1 ∨ p % 4 = 3 := by omega
      have e4 : q % 4 = 1 ∨ q % 4 = 3 := by omega
      rcases e1 with e1 | e1 <;> rcases e2 with e2 | e2 <;> rcases e3 with e3 | e3 <;>
        rcases e4 with e4 | e4 <;> simp [Nat.add_mod, Nat.mul_mod, e1, e2, e3, e4]
  · rw [hsq]
    exact ⟨δ, by omega⟩

/-- A multiplier is skipped only for `n ≥ 35937`. -/
theorem Skipped.large {n B k : Nat} (hB1 : B ^ 3 ≤ n) (hk : 1 ≤ k) (h : Skipped n B k) :
    33 ≤ B := by
  obtain ⟨s, h1, h2, -, h4⟩ := h
  have hm : lehMod k = 2 ∧ 2 ≤ k ∨ lehMod k = 4 := by
    unfold lehMod; split
    · left; exact ⟨rfl, by omega⟩
    · right; rfl
  have hkn : 4 * k * B ^ 3 ≤ 4 * k * n := Nat.mul_le_mul le_rfl hB1
  by_contra hc
  have hB : B ≤ 32 := by omega
  rcases hm with ⟨hm, hk2⟩ | hm
  · rw [hm] at h4
    have h5 : 2 * (s + 1) ≤ B ^ 2 := by nlinarith
    have h6 : (2 * (s + 1)) * (2 * (s + 1)) ≤ B ^ 2 * B ^ 2 := Nat.mul_le_mul h5 h5
    have h7 : 4 * (8 * B ^ 3) < B ^ 2 * B ^ 2 := by
      have : 8 * B ^ 3 ≤ 4 * k * B ^ 3 := Nat.mul_le_mul (by omega) le_rfl
      nlinarith
    have h8 : B ^ 2 * B ^ 2 = B * B ^ 3 := by ring
    have h9 : B * B ^ 3 ≤ 32 * B ^ 3 := Nat.mul_le_mul hB le_rfl
    omega
  · rw [hm] at h4
    have h5 : 6 * (s + 1) ≤ B ^ 2 := by nlinarith
    have h6 : (6 * (s + 1)) * (6 * (s + 1)) ≤ B ^ 2 * B ^ 2 := Nat.mul_le_mul h5 h5
    have h7 : 36 * (4 * B ^ 3) < B ^ 2 * B ^ 2 := by
      have : 4 * B ^ 3 ≤ 4 * k * B ^ 3 := Nat.mul_le_mul (by omega) le_rfl
      nlinarith
    have h8 : B ^ 2 * B ^ 2 = B * B ^ 3 := by ring
    have h9 : B * B ^ 3 ≤ 32 * B ^ 3 := Nat.mul_le_mul hB le_rfl
    omega

/-- `lehman` with the trial division replaced by its result. -/
theorem lehman_eq (T : List Nat) (hT : IsPrimeTable T) (n : Nat) (hn : 2 ≤ n) :
    ∃ B, integerNthRoot 3 n = .ok B ∧ B ^ 3 ≤ n ∧ n < (B + 1) ^ 3 ∧
      lehman T n = if n.minFac ≤ B then .ok (n.minFac : Int) else lehmanLoop n B 1 B := by
  obtain ⟨B, hB, h1, h2⟩ := C08_integer_nth_root_partial 3 n (by norm_num) (by omega) (by norm_num)
  have h1' : B ^ 3 ≤ n := by exact_mod_cast h1
  refine ⟨B, hB, h1', by exact_mod_cast h2, ?_⟩
  unfold lehman
  rw [hB]
  simp only
  rw [trialDivisionBound_spec T hT n B hn]
  simp only
  by_cases h : n.minFac ≤ B
  · rw [if_pos h, if_pos h, if_pos]
    have hB2 : 2 ≤ B := (Nat.minFac_prime (show n ≠ 1 by omega)).two_le.trans h
    have : B < B ^ 3 := by nlinarith [Nat.mul_le_mul hB2 hB2, show B ^ 3 = B * B * B by ring]
    omega
  · rw [if_neg h, if_neg h, if_neg (lt_irrefl n)]

/-- The small cases, by evaluation. -/
theorem lehmanLoop_small : ∀ n : Nat, n < 13 → 2 ≤ n → n ≠ 4 → n ≠ 6 → ∀ B, integerNthRoot 3 n = .ok B →
    n.minFac ≤ B ∨ (lehmanLoop n B 1 B = .ok (n : Int) ∧ n.Prime) ∨
      (n = 9 ∧ lehmanLoop n B 1 B = .ok 3) := by
  have h : ∀ n : Nat, n < 13 → 2 ≤ n → n ≠ 4 → n ≠ 6 → ∃ B, integerNthRoot 3 (n : Nat) = .ok B ∧
      (n.minFac ≤ B ∨ (lehmanLoop n B 1 B = .ok (n : Int) ∧ n.Prime) ∨
        (n = 9 ∧ lehmanLoop n B 1 B = .ok 3)) := by
    intro n hn h2 h4 h6
    interval_cases n
    · exact ⟨1, by decide +kernel, .inr (.inl ⟨by decide +kernel, by norm_num⟩)⟩
    · exact ⟨1, by decide +kernel, .inr (.inl ⟨by decide +kernel, by norm_num⟩)⟩
    · omega
    · exact ⟨1, by decide +kernel, .inr (.inl ⟨by decide +kernel, by norm_num⟩)⟩
    · omega
    · exact ⟨1, by decide +kernel, .inr (.inl ⟨by decide +kernel, by norm_num⟩)⟩
    · exact ⟨2, by decide +kernel, .inl (by norm_num)⟩
    · exact ⟨2, by decide +kernel, .inr (.inr ⟨rfl, by decide +kernel⟩)⟩
    · exact ⟨2, by decide +kernel, .inl (by norm_num)⟩
    · exact ⟨2, by decide +kernel, .inr (.inl ⟨by decide +kernel, by norm_num⟩)⟩
    · exact ⟨2, by decide +kernel, .inl (by norm_num)⟩
  intro n hn h2 h4 h6 B hB
  obtain ⟨B', hB', h'⟩ := h n hn h2 h4 h6
  rw [hB] at hB'
  cases hB'
  exact h'

/-- C136: for `n ≥ 2` other than 4 and 6, `lehman(n)` returns a divisor of `n` greater than 1, and
if it returns `n`, then `n` is prime or one of the multipliers was skipped by mistake.  (The claim of
the docstring is that `n` is prime.) -/
theorem C136_lehman_partial (T : List Nat) (hT : IsPrimeTable T) (n : Nat) (hn : 2 ≤ n) (h4 : n ≠ 4)
    (h6 : n ≠ 6) :
    ∃ d : Nat, lehman T n = .ok (d : Int) ∧ d ∣ n ∧ 1 < d ∧
      (d = n → n.Prime ∨ ∃ k B, 1 ≤ k ∧ k ≤ B ∧ B ^ 3 ≤ n ∧ n < (B + 1) ^ 3 ∧ Skipped n B k) := by
  obtain ⟨B, hB, hB1, hB2, h⟩ := lehman_eq T hT n hn
  have hpp := Nat.minFac_prime (show n ≠ 1 by omega)
  by_cases hm : n.minFac ≤ B
  · rw [if_pos hm] at h
    refine ⟨_, h, Nat.minFac_dvd n, hpp.one_lt, fun he => Or.inl ?_⟩
    rwa [he] at hpp
  · rw [if_neg hm] at h
    rcases Nat.lt_or_ge n 13 with hs | hs
    · rcases lehmanLoop_small n hs hn h4 h6 B hB with h1 | ⟨h1, h2⟩ | ⟨h1, h2⟩
      · exact absurd h1 hm
      · exact ⟨n, by rw [h, h1], dvd_rfl, by omega, fun _ => Or.inl h2⟩
      · subst h1
        exact ⟨3, by rw [h, h2]; rfl, by norm_num, by norm_num, fun h => by omega⟩
    · rcases lehmanLoop_complete n B hs hB1 B 1 le_rfl (by omega) with ⟨d, h1, h2, h3, h5⟩ | ⟨h1, h2⟩
      · exact ⟨d, by rw [h, h1], h2, h3, fun he => by omega⟩
      · refine ⟨n, by rw [h, h1], dvd_rfl, by omega, fun _ => ?_⟩
        by_cases hp : n.Prime
        · exact Or.inl hp
        · right
          have hB2' : 2 ≤ B := by
            by_contra hc
            have : (B + 1) ^ 3 ≤ 2 ^ 3 := Nat.pow_le_pow_left (by omega) 3
            omega
          obtain ⟨k, a, hk1, hk2, ha1, ha2, ha3, ha4⟩ :=
            lehman_theorem n B hB2' hB1 hB2 hp (by omega)
          exact ⟨k, B, hk1, hk2, hB1, hB2, h2 k hk1 (by omega) a ha1 ha2 ha3 ha4⟩

/-- C136: below 35937 the claim of the docstring holds, except for 4 and 6: `lehman(n)` is a divisor
of `n` greater than 1, and it is `n` exactly for primes. -/
theorem C136_lehman_small (T : List Nat) (hT : IsPrimeTable T) (n : Nat) (hn : 2 ≤ n) (h4 : n ≠ 4)
    (h6 : n ≠ 6) (hlt : n < 35937) :
    ∃ d : Nat, lehman T n = .ok (d : Int) ∧ d ∣ n ∧ 1 < d ∧ (d = n ↔ n.Prime) := by
  obtain ⟨d, h1, h2, h3, h5⟩ := C136_lehman_partial T hT n hn h4 h6
  refine ⟨d, h1, h2, h3, fun he => ?_, fun hp => ?_⟩
  · rcases h5 he with h | ⟨k, B, hk1, hk2, hB1, hB2, hsk⟩
    · exact h
    · exfalso
      have h33 := hsk.large hB1 hk1
      have : 33 ^ 3 ≤ B ^ 3 := Nat.pow_le_pow_left h33 3
      omega
  · exact ((Nat.dvd_prime hp).1 h2).resolve_left (by omega)

/-- C136: the claim of the docstring fails: `lehman(71441)` is `71441 = 199 * 359`.
It also fails for 4 and 6. -/
theorem C136_lehman_violation (T : List Nat) (hT : IsPrimeTable T) :
    lehman T 71441 = .ok 71441 ∧ ¬ Nat.Prime 71441 ∧
    lehman T 4 = .ok 4 ∧ lehman T 6 = .ok 6 := by
  have e : 71441 = 199 * 359 := by norm_num
  refine ⟨?_, ?_, ?_, ?_⟩
  · obtain ⟨B, hB, hB1, hB2, h⟩ := lehman_eq T hT 71441 (by norm_num)
    have hB' : integerNthRoot 3 (71441 : Nat) = .ok 41 := by decide +kernel
    rw [hB] at hB'
    cases hB'
    have hm : ¬ Nat.minFac 71441 ≤ 41 := by
      have hpp := Nat.minFac_prime (show (71441 : Nat) ≠ 1 by norm_num)
      have hd := Nat.minFac_dvd 71441
      rw [e] at hd hpp
      rw [e]
      rcases (hpp.dvd_mul).1 hd with h1 | h1
      · rw [Nat.prime_dvd_prime_iff_eq hpp (by norm_num)] at h1; omega
      · rw [Nat.prime_dvd_prime_iff_eq hpp (by norm_num)] at h1; omega
    rw [h, if_neg hm]
    decide +kernel
  · norm_num
  · obtain ⟨B, hB, hB1, hB2, h⟩ := lehman_eq T hT 4 (by norm_num)
    have hB' : integerNthRoot 3 (4 : Nat) = .ok 1 := by decide +kernel
    rw [hB] at hB'
    cases hB'
    rw [h, if_neg (by norm_num)]
    decide +kernel
  · obtain ⟨B, hB, hB1, hB2, h⟩ := lehman_eq T hT 6 (by norm_num)
    have hB' : integerNthRoot 3 (6 : Nat) = .ok 1 := by decide +kernel
    rw [hB] at hB'
    cases hB'
    rw [h, if_neg (by norm_num)]
    decide +kernel

example : lehman [2, 3, 5, 7] 8051 = .ok 97 ∧ lehman [2, 3, 5, 7] 1000007 = .ok 29 := by decide +kernel

end Rosemary.Props
