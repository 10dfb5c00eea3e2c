import Verif.Lemmas.Divisors
import Verif.Props.Core
import Mathlib.RingTheory.ZMod.UnitsCyclic

/-!
# Properties C29-C31: arithmetic functions
-/

namespace Rosemary

/-- What the functions accept as the factorization of `n`: `[(1, 1)]` for `n = 1`, otherwise
distinct primes with positive exponents and product `n`. -/
def IsFactorization (fac : List (Nat × Nat)) (n : Nat) : Prop :=
  (fac = [(1, 1)] ∧ n = 1) ∨ (DistinctPrimes fac ∧ (∀ pe ∈ fac, 1 ≤ pe.2) ∧ facProd fac = n)

theorem DistinctPrimes.ne_one {fac : List (Nat × Nat)} (h : DistinctPrimes fac) : fac ≠ [(1, 1)] := by
  rintro rfl
  exact Nat.not_prime_one (h.prime (1, 1) (by simp))

namespace Props

open Rosemary.Core Rosemary.ArithFunctions

/-! ## C29 -/

theorem prod_map_congr {α : Type} {M : Type} [Monoid M] {l : List α} {f g : α → M}
    (h : ∀ x ∈ l, f x = g x) : (l.map f).prod = (l.map g).prod := by
  rw [List.map_congr_left h]

/-- `euler_phi(n)` counts the integers below `n` coprime to `n`. -/
theorem C29_euler_phi (n : Nat) (fac : List (Nat × Nat)) (h : IsFactorization fac n) :
    eulerPhi fac = n.totient := by
  rcases h with ⟨rfl, rfl⟩ | ⟨h1, h2, rfl⟩
  · decide +kernel
  · unfold eulerPhi
    rw [if_neg h1.ne_one, foldl_mul_eq, one_mul,
      multiplicative_facProd Nat.totient Nat.totient_one (fun m n h => Nat.totient_mul h) fac h1]
    apply prod_map_congr
    intro pe hpe
    rw [Nat.totient_prime_pow (h1.prime pe hpe) (by have := h2 pe hpe; omega)]

/-- `moebius_mu(n)`. -/
theorem C29_moebius_mu (n : Nat) (fac : List (Nat × Nat)) (h : IsFactorization fac n) :
    moebiusMu fac = ArithmeticFunction.moebius n := by
  rcases h with ⟨rfl, rfl⟩ | ⟨h1, h2, rfl⟩
  · simp [moebiusMu]
  · unfold moebiusMu
    rw [if_neg h1.ne_one,
      multiplicative_facProd (fun n => ArithmeticFunction.moebius n) (by simp)
        (fun m n h => ArithmeticFunction.isMultiplicative_moebius.map_mul_of_coprime h) fac h1]
    have : ∀ l : List (Nat × Nat), (∀ pe ∈ l, pe.1.Prime) → (∀ pe ∈ l, 1 ≤ pe.2) →
        (l.map (fun pe => ArithmeticFunction.moebius (pe.1 ^ pe.2))).prod =
          if isSquarefree l then (-1 : Int) ^ l.length else 0 := by
      intro l hl hl2
      induction l with
      | nil => simp [isSquarefree]
      | cons a l ih =>
        simp only [List.mem_cons, forall_eq_or_imp] at hl hl2
        rw [List.map_cons, List.prod_cons, ih hl.2 hl2.2,
          ArithmeticFunction.moebius_apply_prime_pow hl.1 (by omega)]
        by_cases ha : a.2 = 1
        · have : isSquarefree (a :: l) = isSquarefree l := by simp [isSquarefree, ha]
          rw [this, if_pos ha, List.length_cons, pow_succ]
          split <;> ring
        · have : isSquarefree (a :: l) = false := by simp [isSquarefree, ha]
          rw [this, if_neg ha]; simp
    exact (this fac h1.prime h2).symm

/-- `divisor_tau(n)` is the number of divisors of `n`. -/
theorem C29_divisor_tau (n : Nat) (fac : List (Nat × Nat)) (h : IsFactorization fac n) :
    divisorTau fac = n.divisors.card := by
  rw [← ArithmeticFunction.sigma_zero_apply]
  rcases h with ⟨rfl, rfl⟩ | ⟨h1, h2, rfl⟩
  · simp [divisorTau]
  · unfold divisorTau
    rw [if_neg h1.ne_one, foldl_mul_eq, one_mul,
      multiplicative_facProd (fun n => ArithmeticFunction.sigma 0 n) (by simp)
        (fun m n h => ArithmeticFunction.isMultiplicative_sigma.map_mul_of_coprime h) fac h1]
    apply prod_map_congr
    intro pe hpe
    rw [ArithmeticFunction.sigma_zero_apply_prime_pow (h1.prime pe hpe)]

/-- `divisor_sigma(n, k)` is the sum of the `k`-th powers of the divisors of `n`; negative `k`
is rejected. -/
theorem C29_divisor_sigma (n : Nat) (fac : List (Nat × Nat)) (h : IsFactorization fac n) (k : Int) :
    divisorSigma fac k =
      if k < 0 then .error .valueError else .ok (∑ d ∈ n.divisors, d ^ k.toNat) := by
  unfold divisorSigma
  split
  · rfl
  · rename_i hk
    split
    · rename_i h0
      subst h0
      rw [C29_divisor_tau n fac h]
      simp
    · rename_i h0
      rw [← ArithmeticFunction.sigma_apply]
      rcases h with ⟨rfl, rfl⟩ | ⟨h1, h2, rfl⟩
      · simp
      · rw [if_neg h1.ne_one, foldl_mul_eq, one_mul,
          multiplicative_facProd (fun n => ArithmeticFunction.sigma k.toNat n) (by simp)
            (fun m n h => ArithmeticFunction.isMultiplicative_sigma.map_mul_of_coprime h) fac h1]
        congr 1
        apply prod_map_congr
        intro pe hpe
        have hp := (h1.prime pe hpe).two_le
        have hk' : k.toNat ≠ 0 := by omega
        have h3 : 2 ≤ pe.1 ^ k.toNat := hp.trans (Nat.le_self_pow hk' _)
        rw [ArithmeticFunction.sigma_apply_prime_pow (h1.prime pe hpe)]
        rw [← Nat.geomSum_eq h3]
        apply Finset.sum_congr rfl
        intro j _
        rw [← pow_mul, mul_comm]

/-- Integer arguments: 1 is given the factorization `[(1, 1)]`, nonpositive integers are
rejected. -/
theorem C29_validate_input (n : Int) (fac : List (Nat × Nat)) :
    (n ≤ 0 → validateInt n fac = .error .valueError) ∧ validateInt 1 fac = .ok [(1, 1)] ∧
    (2 ≤ n → IsFactorization fac n.toNat → ∃ f, validateInt n fac = .ok f ∧ IsFactorization f n.toNat) := by
  refine ⟨fun h => ?_, rfl, fun h h2 => ⟨fac, ?_, h2⟩⟩
  · unfold validateInt; rw [if_neg (by omega), if_pos h]
  · unfold validateInt; rw [if_neg (by omega), if_neg (by omega)]

example : IsFactorization [(2, 3), (3, 2), (5, 1)] 360 :=
  Or.inr ⟨⟨by decide, by decide⟩, by decide, by decide⟩
example : eulerPhi [(2, 3), (3, 2), (5, 1)] = 96 ∧ divisorTau [(2, 3), (3, 2), (5, 1)] = 24 ∧
    divisorSigma [(2, 3), (3, 2), (5, 1)] 1 = .ok 1170 ∧ moebiusMu [(2, 3), (3, 2), (5, 1)] = 0 ∧
    moebiusMu [(2, 1), (3, 1), (5, 1)] = -1 := by decide +kernel

/-! ## C30 -/

theorem carmichaelTerm_eq (pe : Nat × Nat) (hp : pe.1.Prime) (he : 1 ≤ pe.2) :
    carmichaelTerm pe = ArithmeticFunction.carmichael (pe.1 ^ pe.2) := by
  unfold carmichaelTerm
  split
  · rename_i h
    rw [ArithmeticFunction.carmichael_pow_of_prime_ne_two _ hp h, Nat.totient_prime_pow hp (by omega)]
  · rename_i h
    push Not at h
    rw [h]
    split
    · rename_i h2
      rw [ArithmeticFunction.carmichael_two_pow_of_le_two h2, Nat.one_shiftLeft]
    · rename_i h2
      rw [ArithmeticFunction.carmichael_two_pow_of_ne_two (by omega), Nat.one_shiftLeft]

theorem lcm_cast (a b : Nat) : Core.lcm (a : Int) b = (Nat.lcm a b : Nat) := by
  rw [lcm_eq]; rfl

theorem foldl_lcm_cast (l : List Nat) (a : Nat) :
    (l.map (fun x : Nat => (x : Int))).foldl Core.lcm (a : Int) = ((l.foldl Nat.lcm a : Nat) : Int) := by
  induction l generalizing a with
  | nil => rfl
  | cons b l ih => rw [List.map_cons, List.foldl_cons, lcm_cast, ih]; rfl

theorem foldl_lcm_comm (l : List Nat) (a b : Nat) :
    l.foldl Nat.lcm (Nat.lcm a b) = Nat.lcm a (l.foldl Nat.lcm b) := by
  induction l generalizing b with
  | nil => rfl
  | cons c l ih => simp only [List.foldl_cons, Nat.lcm_assoc, ih]

theorem lcmList_cast (l : List Nat) (h : l ≠ []) :
    lcmList (l.map (fun x : Nat => (x : Int))) = .ok ((l.foldl Nat.lcm 1 : Nat) : Int) := by
  match l, h with
  | [a], _ => simp [lcmList]
  | a :: b :: l, _ =>
    simp only [List.map_cons, lcmList]
    rw [lcm_cast, foldl_lcm_cast]
    simp

theorem foldl_carmichael (fac : List (Nat × Nat)) (h1 : DistinctPrimes fac) (h2 : ∀ pe ∈ fac, 1 ≤ pe.2) :
    (fac.map carmichaelTerm).foldl Nat.lcm 1 = ArithmeticFunction.carmichael (facProd fac) := by
  induction fac with
  | nil =>
    show 1 = ArithmeticFunction.carmichael 1
    rw [ArithmeticFunction.carmichael_eq_exponent (by norm_num)]
    exact (Monoid.exp_eq_one_iff.2 (by infer_instance)).symm
  | cons a l ih =>
    simp only [List.mem_cons, forall_eq_or_imp] at h2
    rw [List.map_cons, List.foldl_cons, Nat.lcm_comm, foldl_lcm_comm, ih h1.tail h2.2, facProd_cons,
      ArithmeticFunction.carmichael_mul (coprime_facProd h1),
      carmichaelTerm_eq a (h1.prime a List.mem_cons_self) h2.1]

/-- `carmichael_lambda(n)`: the least `k ≥ 1` with `a^k ≡ 1 (mod n)` for all `a` coprime to
`n`, for every `n ≥ 1` and the prime factorization `fac` of `n`. -/
theorem C30_carmichael_lambda (n : Nat) (fac : List (Nat × Nat)) (hn : 1 ≤ n)
    (h : 2 ≤ n → IsFactorization fac n) :
    ∃ k : Nat, carmichaelLambdaInt n fac = .ok (k : Int) ∧ 1 ≤ k ∧
      (∀ a, Nat.Coprime a n → a ^ k ≡ 1 [MOD n]) ∧
      ∀ j, 1 ≤ j → (∀ a, Nat.Coprime a n → a ^ j ≡ 1 [MOD n]) → k ≤ j := by
  have hval : carmichaelLambdaInt n fac = .ok ((ArithmeticFunction.carmichael n : Nat) : Int) := by
    unfold carmichaelLambdaInt
    split
    · rename_i h1
      have : n = 1 := by omega
      subst this
      have h3 := foldl_carmichael [] ⟨by simp, by simp⟩ (by simp)
      rw [facProd_nil] at h3
      rw [← h3]; rfl
    · rw [if_neg (by omega)]
      rcases h (by omega) with ⟨_, h1⟩ | ⟨h1, h2, rfl⟩
      · omega
      · unfold carmichaelLambda
        rw [← foldl_carmichael fac h1 h2]
        have := lcmList_cast (fac.map carmichaelTerm) (by
          intro he
          rw [List.map_eq_nil_iff] at he
          subst he
          simp at *)
        rw [List.map_map] at this
        exact this
  have hex := ArithmeticFunction.carmichael_eq_exponent (n := n) (by omega)
  have : NeZero n := ⟨by omega⟩
  have key : ∀ j, (∀ a, Nat.Coprime a n → a ^ j ≡ 1 [MOD n]) ↔ ∀ u : (ZMod n)ˣ, u ^ j = 1 := by
    intro j
    constructor
    · intro hj u
      have hc := ZMod.val_coe_unit_coprime u
      have := (ZMod.natCast_eq_natCast_iff _ _ _).2 (hj _ hc)
      apply Units.ext
      push_cast at this ⊢
      simpa using this
    · intro hj a ha
      have := hj (ZMod.unitOfCoprime a ha)
      rw [← ZMod.natCast_eq_natCast_iff]
      have h2 := congrArg (fun u : (ZMod n)ˣ => (u : ZMod n)) this
      push_cast at h2 ⊢
      simpa using h2
  refine ⟨_, hval, ?_, ?_, ?_⟩
  · rw [hex]
    exact Nat.one_le_iff_ne_zero.2 Monoid.exponent_ne_zero_of_finite
  · rw [key]
    intro u; rw [hex]; exact Monoid.pow_exponent_eq_one u
  · intro j hj h
    rw [key] at h
    rw [hex]
    exact Monoid.exponent_min' j (by omega) h

theorem C30_carmichael_lambda_error (n : Int) (fac : List (Nat × Nat)) (h : n ≤ 0) :
    carmichaelLambdaInt n fac = .error .valueError := by
  unfold carmichaelLambdaInt
  rw [if_neg (by omega), if_pos h]

/-- Given as the factorization `[(1, 1)]`, which the other functions accept for `n = 1`, the
result is 0 rather than 1. -/
theorem C30_carmichael_lambda_unit_factorization : carmichaelLambda [(1, 1)] = .ok 0 := by decide +kernel

example : carmichaelLambdaInt 720 [(2, 4), (3, 2), (5, 1)] = .ok 12 := by decide +kernel

/-! ## C31 -/

/-- `factorial(n)` is `n!`. -/
theorem C31_factorial (n : Nat) : ArithFunctions.factorial n = .ok n.factorial := by
  unfold ArithFunctions.factorial
  rw [if_neg (by omega)]
  split
  · rename_i h
    have : n = 0 ∨ n = 1 := by omega
    rcases this with rfl | rfl <;> rfl
  · simp only [Int.toNat_natCast]
    rw [foldl_mul_eq, one_mul, C06_bit_count, Int.natAbs_natCast, Nat.shiftLeft_eq]
    rw [factorial_eq n (by omega)]
    rfl

theorem C31_factorial_error (n : Int) (h : n < 0) : ArithFunctions.factorial n = .error .valueError := by
  unfold ArithFunctions.factorial
  rw [if_pos h]

example : ArithFunctions.factorial 20 = .ok 2432902008176640000 := by decide +kernel

end Props
end Rosemary
