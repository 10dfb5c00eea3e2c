import Verif.Model.IntegerCalls
import Verif.Props.Factorization
import Verif.Props.SquareRoots
import Mathlib.Data.Nat.Squarefree

/-!
# Properties C139 and C140: arithmetic functions called with integers

For numbers with at most one prime factor above 999983, in particular below `999984 ^ 2` (about `10^12`), the real table of
primes makes `factor` exact, whatever the splitting routine does, so that everything that is computed from the factorization is exact as well.
-/

namespace Rosemary.Props

open Rosemary Rosemary.Core Rosemary.ArithFunctions Rosemary.Factorization Rosemary.Zn Rosemary.IntegerCalls
open Rosemary.Primality

/-- A signed factorization of a positive integer as a list of natural numbers. -/
theorem signed_toNat {L : List (Int × Nat)} {n : Nat} (hn : 1 ≤ n) (h : IsSignedFactorization L n) :
    FactorsTo (L.map (fun pe => (pe.1.toNat, pe.2))) n ∧
      ((L.map (fun pe => (pe.1.toNat, pe.2))).map Prod.fst).Pairwise (· < ·) := by
  have hp : ∀ pe ∈ L, ∃ p : Nat, p.Prime ∧ pe.1 = p := by
    intro pe hpe
    rcases h.prime pe hpe with rfl | h1
    · have := h.sign.1 hpe; omega
    · exact h1
  have hinc : ((L.map (fun pe => (pe.1.toNat, pe.2))).map Prod.fst).Pairwise (· < ·) := by
    have h1 := h.increasing
    rw [List.pairwise_map] at h1
    rw [List.map_map, List.pairwise_map]
    refine h1.imp_of_mem ?_
    intro a b ha hb hab
    obtain ⟨p, hp1, hp2⟩ := hp a ha
    obtain ⟨q, hq1, hq2⟩ := hp b hb
    simp only [Function.comp]
    rw [hp2, hq2] at hab ⊢
    simpa using hab
  refine ⟨⟨⟨?_, hinc.imp (fun h => ne_of_lt h)⟩, ?_, ?_⟩, hinc⟩
  · intro pe hpe
    obtain ⟨x, hx, rfl⟩ := List.mem_map.1 hpe
    obtain ⟨p, hp1, hp2⟩ := hp x hx
    simp only [hp2, Int.toNat_natCast]; exact hp1
  · intro pe hpe
    obtain ⟨x, hx, rfl⟩ := List.mem_map.1 hpe
    exact h.pos x hx
  · have h1 := h.prod
    unfold facProd
    rw [List.map_map]
    have h2 : ((L.map (fun pe => (pe.1.toNat) ^ pe.2)).prod : Nat) = (n : Int) := by
      rw [← h1, Nat.cast_list_prod, List.map_map]
      congr 1
      apply List.map_congr_left
      intro pe hpe
      obtain ⟨p, hp1, hp2⟩ := hp pe hpe
      simp [hp2]
    exact_mod_cast h2

/-- `factor` on the range of the table. -/
theorem withFactor_real {α : Type} (fct : Nat → Nat → Option Nat) (n : Nat) (hn : 1 ≤ n)
    (hlt : OneLarge 999983 n) :
    ∃ fac, FactorsTo fac n ∧ (fac.map Prod.fst).Pairwise (· < ·) ∧
      ∀ k : List (Nat × Nat) → Option (Except PyErr α), withFactor primeList fct n k = k fac := by
  obtain ⟨L, hL, h⟩ := C27_factor_real_one_large_partial fct n (by omega) (by simpa using hlt)
  obtain ⟨h1, h2⟩ := signed_toNat hn h
  refine ⟨_, h1, h2, fun k => ?_⟩
  unfold withFactor
  rw [hL]

theorem withValidated_real {α : Type} (fct : Nat → Nat → Option Nat) (n : Nat) (hn : 1 ≤ n)
    (hlt : OneLarge 999983 n) :
    ∃ fac, IsFactorization fac n ∧
      ∀ k : List (Nat × Nat) → Option (Except PyErr α), withValidated primeList fct n k = k fac := by
  by_cases h1 : n = 1
  · subst h1
    exact ⟨[(1, 1)], Or.inl ⟨rfl, rfl⟩, fun k => by unfold withValidated; rw [if_pos (by norm_num)]⟩
  · obtain ⟨fac, h2, -, h3⟩ := withFactor_real (α := α) fct n hn hlt
    refine ⟨fac, h2.isFactorization, fun k => ?_⟩
    unfold withValidated
    rw [if_neg (by omega), if_neg (by omega), Int.toNat_natCast, h3]

/-- C139: `euler_phi`, `moebius_mu`, `divisor_tau`, `divisor_sigma` and `is_squarefree` called with an
integer with at most one prime factor above 999983 are exact. -/
theorem C139_multiplicative_partial (fct : Nat → Nat → Option Nat) (n : Nat) (hn : 1 ≤ n)
    (hlt : OneLarge 999983 n) (k : Nat) :
    eulerPhiCall primeList fct n = some (.ok n.totient) ∧
    moebiusMuCall primeList fct n = some (.ok (ArithmeticFunction.moebius n)) ∧
    divisorTauCall primeList fct n = some (.ok n.divisors.card) ∧
    divisorSigmaCall primeList fct n k = some (.ok (∑ d ∈ n.divisors, d ^ k)) ∧
    isSquarefreeCall primeList fct n = some (.ok (decide (Squarefree n))) := by
  refine ⟨?_, ?_, ?_, ?_, ?_⟩
  · obtain ⟨fac, h1, h2⟩ := withValidated_real (α := Nat) fct n hn hlt
    unfold eulerPhiCall; rw [h2, C29_euler_phi n fac h1]
  · obtain ⟨fac, h1, h2⟩ := withValidated_real (α := Int) fct n hn hlt
    unfold moebiusMuCall; rw [h2, C29_moebius_mu n fac h1]
  · obtain ⟨fac, h1, h2⟩ := withValidated_real (α := Nat) fct n hn hlt
    unfold divisorTauCall; rw [h2, C29_divisor_tau n fac h1]
  · obtain ⟨fac, h1, h2⟩ := withValidated_real (α := Nat) fct n hn hlt
    unfold divisorSigmaCall
    rw [if_neg (by omega), h2, C29_divisor_sigma n fac h1, if_neg (by omega), Int.toNat_natCast]
  · obtain ⟨fac, h1, h2⟩ := withValidated_real (α := Bool) fct n hn hlt
    unfold isSquarefreeCall; rw [h2]
    congr 2
    have hmu := C29_moebius_mu n fac h1
    unfold moebiusMu at hmu
    rw [Bool.eq_iff_iff, decide_eq_true_iff, ← ArithmeticFunction.moebius_ne_zero_iff_squarefree, ← hmu]
    rcases h1 with ⟨rfl, rfl⟩ | ⟨hd, -, -⟩
    · simp [isSquarefree]
    · rw [if_neg hd.ne_one]
      split
      · rename_i h; simp [h]
      · rename_i h; simp [h]

/-- C139: nonpositive integers are rejected, and so is a negative exponent. -/
theorem C139_multiplicative_error (T : List Nat) (fct : Nat → Nat → Option Nat) (n : Int) (hn : n ≤ 0) (k : Int) :
    eulerPhiCall T fct n = some (.error .valueError) ∧
    moebiusMuCall T fct n = some (.error .valueError) ∧
    divisorTauCall T fct n = some (.error .valueError) ∧
    divisorSigmaCall T fct n k = some (.error .valueError) ∧
    carmichaelCall T fct n = some (.error .valueError) ∧
    isSquarefreeCall T fct n = some (.error .valueError) ∧
    (∀ m j : Int, j < 0 → divisorSigmaCall T fct m j = some (.error .valueError)) ∧
    divisorsCall T fct 0 = some (.error .valueError) ∧
    primeDivisorsCall T fct 0 = some (.error .valueError) := by
  have h : ∀ {α : Type} (k : List (Nat × Nat) → Option (Except PyErr α)),
      withValidated T fct n k = some (.error .valueError) := by
    intro α k
    unfold withValidated
    rw [if_neg (by omega), if_pos hn]
  refine ⟨h _, h _, h _, ?_, ?_, h _, ?_, rfl, rfl⟩
  · unfold divisorSigmaCall; split
    · rfl
    · exact h _
  · unfold carmichaelCall; rw [if_neg (by omega), if_pos hn]
  · intro m j hj; unfold divisorSigmaCall; rw [if_pos hj]

/-- C139: `carmichael_lambda(n)` is the exponent of the group of units modulo `n`. -/
theorem C139_carmichael_partial (fct : Nat → Nat → Option Nat) (n : Nat) (hn : 1 ≤ n)
    (hlt : OneLarge 999983 n) :
    ∃ k : Nat, carmichaelCall primeList fct n = some (.ok (k : Int)) ∧ 1 ≤ k ∧
      (∀ a, Nat.Coprime a n → a ^ k ≡ 1 [MOD n]) ∧
      ∀ j, 1 ≤ j → (∀ a, Nat.Coprime a n → a ^ j ≡ 1 [MOD n]) → k ≤ j := by
  obtain ⟨fac, h1, -, h3⟩ := withFactor_real (α := Int) fct n hn hlt
  obtain ⟨k, hk, h⟩ := C30_carmichael_lambda n fac hn (fun _ => h1.isFactorization)
  refine ⟨k, ?_, h⟩
  unfold carmichaelCall
  unfold carmichaelLambdaInt at hk
  split
  · rename_i h0; rw [if_pos h0] at hk; rw [hk]
  · rename_i h0
    rw [if_neg h0] at hk
    rw [if_neg (by omega)] at hk ⊢
    rw [Int.toNat_natCast, h3, hk]

/-- C139: `divisors(n)` and `prime_divisors(n)` of an integer of either sign. -/
theorem C139_divisors_partial (fct : Nat → Nat → Option Nat) (n : Int) (hn : n ≠ 0)
    (hlt : OneLarge 999983 n.natAbs) :
    (∃ L, divisorsCall primeList fct n = some (.ok L) ∧ L.Pairwise (· < ·) ∧
      ∀ d : Nat, d ∈ L ↔ (d : Int) ∣ n) ∧
    (∃ L, primeDivisorsCall primeList fct n = some (.ok L) ∧ L.Pairwise (· < ·) ∧
      ∀ q : Nat, q ∈ L ↔ q.Prime ∧ (q : Int) ∣ n) := by
  obtain ⟨fac, h1, h2, h3⟩ := withFactor_real (α := List Nat) fct n.natAbs (by omega) hlt
  constructor
  · obtain ⟨h4, h5⟩ := C28_divisors fac h1.primes
    refine ⟨divisors fac, by unfold divisorsCall; rw [h3], h4, fun d => ?_⟩
    rw [h5, h1.prod, Int.natCast_dvd]
  · obtain ⟨h4, h5⟩ := C28_prime_divisors fac h1.primes h1.pos
    refine ⟨primeDivisors fac, by unfold primeDivisorsCall; rw [h3], h2, fun d => ?_⟩
    rw [h5, h1.prod, Int.natCast_dvd]

/-- C139: `primitive_root(n)` is the least primitive root, and ValueError is raised when there is
none. -/
theorem C139_primitive_root_partial (fct : Nat → Nat → Option Nat) (n : Nat) (hn : 2 ≤ n)
    (hlt : OneLarge 999983 n) (hlt' : OneLarge 999983 n.totient) :
    ((∃ a, GeneratesUnits a n) → ∃ g : Nat, primitiveRootCall primeList fct n = some (.ok (some g)) ∧
      1 ≤ g ∧ g < n ∧ GeneratesUnits g n ∧ ∀ j : Nat, 1 ≤ j → j < g → ¬ GeneratesUnits j n) ∧
    ((¬ ∃ a, GeneratesUnits a n) → primitiveRootCall primeList fct n = some (.error .valueError)) := by
  obtain ⟨fac, h1, -, h3⟩ := withFactor_real (α := Option Nat) fct n (by omega) hlt
  have hphi := C29_euler_phi n fac h1.isFactorization
  have hpos : 0 < n.totient := Nat.totient_pos.2 (by omega)
  obtain ⟨pf, h4, -, h5⟩ := withFactor_real (α := Option Nat) fct n.totient hpos hlt'
  have hne : fac ≠ [] := by
    rintro rfl
    have := h1.prod
    simp [facProd] at this
    omega
  have hcall : primitiveRootCall primeList fct n = some (primitiveRoot n fac pf) := by
    unfold primitiveRootCall
    rw [h3, if_neg hne, hphi, h5]
  obtain ⟨h6, h7⟩ := C23_primitive_root n hn fac pf h1 h4
  rw [hcall]
  refine ⟨fun h => ?_, fun h => by rw [h7 h]⟩
  obtain ⟨g, hg, h8⟩ := h6 h
  exact ⟨g, by rw [hg], h8⟩

/-- C139: a result of `sqrts_mod_n(a, n)` is the increasing list of all square roots. -/
theorem C139_sqrts_mod_n_partial (fct : Nat → Nat → Option Nat) (rnd : Nat → Nat → Int) (a : Int) (n : Nat)
    (hn : 2 ≤ n) (hlt : OneLarge 999983 n) (r : Except PyErr (List Int))
    (h : sqrtsModNCall primeList fct rnd a n = some r) :
    ∃ L, r = .ok L ∧ L.Pairwise (· < ·) ∧
      ∀ x, x ∈ L ↔ 0 ≤ x ∧ x < n ∧ (n : Int) ∣ x ^ 2 - a := by
  obtain ⟨fac, h1, -, h3⟩ := withFactor_real (α := List Int) fct n (by omega) hlt
  unfold sqrtsModNCall at h
  rw [h3] at h
  exact C21_sqrts_mod_n rnd a n hn fac h1 r h

/-- C139: above the range of the table the results can be wrong: `euler_phi(341550071728321)` is
`341550071728320`, as if the number were prime, but it is `10670053 * 32010157`. -/
theorem C139_violation (fct : Nat → Nat → Option Nat) :
    eulerPhiCall primeList fct 341550071728321 = some (.ok 341550071728320) ∧
    Nat.totient 341550071728321 = 10670052 * 32010156 ∧
    divisorsCall primeList fct 341550071728321 = some (.ok [1, 341550071728321]) ∧
    10670053 ∣ 341550071728321 := by
  obtain ⟨h1, -, h3⟩ := C27_factor_violation fct
  have hw : ∀ {α : Type} (k : List (Nat × Nat) → Option (Except PyErr α)),
      withFactor primeList fct 341550071728321 k = k [(341550071728321, 1)] := by
    intro α k
    unfold withFactor
    rw [show ((341550071728321 : Nat) : Int) = 341550071728321 from rfl, h1]
    rfl
  refine ⟨?_, ?_, ?_, by norm_num⟩
  · unfold eulerPhiCall withValidated
    rw [if_neg (by norm_num), if_neg (by norm_num),
      show (341550071728321 : Int).toNat = 341550071728321 from rfl, hw]
    decide +kernel
  · rw [h3, Nat.totient_mul (by norm_num), Nat.totient_prime (by norm_num), Nat.totient_prime (by norm_num)]
  · unfold divisorsCall
    rw [show (341550071728321 : Int).natAbs = 341550071728321 from rfl, hw]
    decide +kernel

/-- The bound on the size: below `999984 ^ 2` the hypotheses hold. -/
theorem oneLarge_real {n : Nat} (hn : 1 ≤ n) (h : n < 999984 ^ 2) : OneLarge 999983 n ∧ OneLarge 999983 n.totient :=
  ⟨oneLarge_of_lt hn h, oneLarge_of_lt (Nat.totient_pos.2 hn) (lt_of_le_of_lt (Nat.totient_le n) h)⟩

/-- All numbers without a prime factor above 999983 satisfy them, however large: `10 ^ 100`. -/
example : OneLarge 999983 (10 ^ 100) := by
  intro p q hp _ h1 _ hd
  have h2 : p ∣ 10 := hp.dvd_of_dvd_pow ((dvd_mul_right p q).trans hd)
  have := Nat.le_of_dvd (by norm_num) h2
  omega

example : eulerPhiCall primeList (fun _ _ => none) 60 = some (.ok 16) := by
  rw [show (60 : Int) = ((60 : Nat) : Int) from rfl,
    (C139_multiplicative_partial (fun _ _ => none) 60 (by norm_num) (oneLarge_of_lt (by norm_num) (by norm_num)) 1).1]
  decide +kernel

/-! ## C140: power detection and unitary divisors -/

/-- C140: `factor(n, skip_power_detection=False)` is exact for every power of an integer with at most one prime factor above
999983, however large. -/
theorem C140_factor_power_partial (fct : Nat → Nat → Option Nat) (b k : Nat) (hb : 1 ≤ b) (hk : 1 ≤ k)
    (hlt : OneLarge 999983 b) :
    ∃ L, factorPow primeList fct ((b ^ k : Nat) : Int) = some (.ok L) ∧
      IsSignedFactorization L ((b ^ k : Nat) : Int) := by
  have scale : ∀ (L : List (Int × Nat)) (m e : Nat), 1 ≤ m → 1 ≤ e → IsSignedFactorization L (m : Int) →
      IsSignedFactorization (L.map (fun pe => (pe.1, pe.2 * e))) ((m ^ e : Nat) : Int) := by
    intro L m e hm he h
    refine ⟨?_, ?_, ?_, ?_, ?_⟩
    · rw [List.map_map]; exact h.increasing
    · intro pe hpe
      obtain ⟨x, hx, rfl⟩ := List.mem_map.1 hpe
      exact Nat.mul_pos (h.pos x hx) he
    · constructor
      · intro hmem
        obtain ⟨x, hx, hx2⟩ := List.mem_map.1 hmem
        rcases h.prime x hx with rfl | ⟨p, hp, hpx⟩
        · have := h.sign.1 hx; omega
        · have : x.1 = -1 := congrArg Prod.fst hx2
          omega
      · intro hneg; have : (0 : Int) ≤ ((m ^ e : Nat) : Int) := Int.natCast_nonneg _; omega
    · intro pe hpe
      obtain ⟨x, hx, rfl⟩ := List.mem_map.1 hpe
      rcases h.prime x hx with rfl | hpx
      · have := h.sign.1 hx; omega
      · exact Or.inr hpx
    · rw [Nat.cast_pow, ← h.prod]
      clear h
      induction L with
      | nil => simp
      | cons a L ih =>
        simp only [List.map_cons, List.prod_cons] at ih ⊢
        rw [ih, mul_pow, pow_mul]
  have hpos : 1 ≤ b ^ k := Nat.one_le_pow _ _ hb
  unfold factorPow
  rw [if_neg (by omega)]
  rcases Nat.eq_or_lt_of_le hb with rfl | hb2
  · have h1 : ((1 ^ k : Nat) : Int) = 1 := by simp
    rw [h1, (C14_is_power_small 1).1]
    dsimp only
    obtain ⟨L, hL, h⟩ := C27_factor_real_one_large_partial fct 1 (by norm_num) (oneLarge_of_lt (by norm_num) (by norm_num))
    rw [hL]
    refine ⟨_, rfl, ?_⟩
    have := scale L 1 1 le_rfl le_rfl h
    simpa using this
  · have hn2 : 2 ≤ b ^ k := le_trans hb2 (Nat.le_self_pow (by omega) b)
    rcases C14_is_power (b ^ k) hn2 with ⟨c, j, h1, h2, h3, h4⟩ | ⟨h1, h2⟩
    · rw [h1]
      dsimp only
      have hkj := h4 b k rfl
      have hc1 : 1 ≤ c := by
        rcases Nat.eq_zero_or_pos c with rfl | h
        · rw [zero_pow (by omega)] at h3; omega
        · exact h
      have hcb : c ∣ b := by
        rw [← Nat.pow_dvd_pow_iff (show k ≠ 0 by omega), ← h3]
        exact pow_dvd_pow c hkj
      obtain ⟨L, hL, h⟩ := C27_factor_real_one_large_partial fct c (by omega) (by simpa using hlt.of_dvd hcb)
      rw [hL]
      refine ⟨_, rfl, ?_⟩
      rw [← h3]
      exact scale L c j hc1 (by omega) h
    · have hk1 : k = 1 := by
        by_contra hc
        exact h2 b k (by omega) rfl
      subst hk1
      rw [h1]
      dsimp only
      rw [pow_one]
      obtain ⟨L, hL, h⟩ := C27_factor_real_one_large_partial fct b (by omega) (by simpa using hlt)
      rw [hL]
      refine ⟨_, rfl, ?_⟩
      have := scale L b 1 hb le_rfl h
      simpa using this

/-- C140: with power detection negative integers, which `factor` accepts otherwise, are rejected. -/
theorem C140_factor_power_negative (T : List Nat) (fct : Nat → Nat → Option Nat) (n : Int) (hn : n < 0) :
    factorPow T fct n = some (.error .valueError) := by
  unfold factorPow
  rw [if_neg (by omega), (C14_is_power_small n).2 (by omega)]

/-- The products of the sublists of the prime powers are the unitary divisors, without repetition. -/
theorem sublists_unitary (fac : List (Nat × Nat)) (hp : ∀ pe ∈ fac, pe.1.Prime)
    (hd : (fac.map Prod.fst).Nodup) (he : ∀ pe ∈ fac, 1 ≤ pe.2) :
    (((fac.map (fun pe => pe.1 ^ pe.2)).sublists'.map List.prod).Nodup) ∧
    ∀ d, d ∈ (fac.map (fun pe => pe.1 ^ pe.2)).sublists'.map List.prod ↔
      ∃ f, d * f = facProd fac ∧ Nat.Coprime d f := by
  induction fac with
  | nil =>
    refine ⟨by simp, fun d => ?_⟩
    simp only [List.map_nil, List.sublists'_nil, List.map_cons, List.prod_nil, List.mem_singleton, facProd]
    constructor
    · rintro rfl; exact ⟨1, by simp, by simp⟩
    · rintro ⟨f, h, -⟩; exact Nat.eq_one_of_mul_eq_one_right h
  | cons a fac ih =>
    obtain ⟨p, e⟩ := a
    simp only [List.mem_cons, forall_eq_or_imp] at hp he
    rw [List.map_cons, List.nodup_cons] at hd
    obtain ⟨ih1, ih2⟩ := ih hp.2 hd.2 he.2
    have hpp : p.Prime := hp.1
    have hfp : facProd ((p, e) :: fac) = p ^ e * facProd fac := by simp [facProd]
    have hndvd : ¬ p ∣ facProd fac := by
      intro h
      obtain ⟨x, hx, hx2⟩ := (Prime.dvd_prod_iff hpp.prime).1 h
      obtain ⟨pe, hpe, rfl⟩ := List.mem_map.1 hx
      have h1 := hpp.dvd_of_dvd_pow hx2
      rw [Nat.prime_dvd_prime_iff_eq hpp (hp.2 pe hpe)] at h1
      exact hd.1 (List.mem_map.2 ⟨pe, hpe, h1.symm⟩)
    have hq : ∀ x, x ∈ (fac.map (fun pe => pe.1 ^ pe.2)).sublists'.map List.prod → ¬ p ∣ x := by
      intro x hx hpx
      obtain ⟨f, hf, -⟩ := (ih2 x).1 hx
      exact hndvd (hf ▸ dvd_mul_of_dvd_left hpx f)
    have hmap : ((p, e) :: fac).map (fun pe => pe.1 ^ pe.2) = p ^ e :: fac.map (fun pe => pe.1 ^ pe.2) := rfl
    have hlist : ((((p, e) :: fac).map (fun pe => pe.1 ^ pe.2)).sublists'.map List.prod) =
        (fac.map (fun pe => pe.1 ^ pe.2)).sublists'.map List.prod ++
        ((fac.map (fun pe => pe.1 ^ pe.2)).sublists'.map List.prod).map (p ^ e * ·) := by
      rw [hmap, List.sublists'_cons, List.map_append, List.map_map, List.map_map]
      congr 1
    have hpe : 0 < p ^ e := Nat.pow_pos hpp.pos
    rw [hlist]
    constructor
    · rw [List.nodup_append]
      refine ⟨ih1, ih1.map (fun x y h => Nat.eq_of_mul_eq_mul_left hpe h), ?_⟩
      intro x hx y hy hxy
      obtain ⟨z, hz, rfl⟩ := List.mem_map.1 hy
      apply hq x hx
      rw [hxy]
      exact dvd_mul_of_dvd_left (dvd_pow_self p (by have := he.1; omega)) z
    · intro d
      rw [List.mem_append, ih2, hfp]
      constructor
      · rintro (⟨f, h1, h2⟩ | hd2)
        · refine ⟨p ^ e * f, by rw [← h1]; ring, ?_⟩
          refine Nat.Coprime.mul_right ?_ h2
          refine (Nat.Coprime.pow_left e ((hpp.coprime_iff_not_dvd).2 ?_)).symm
          intro h
          exact hndvd (h1 ▸ dvd_mul_of_dvd_left h f)
        · obtain ⟨z, hz, rfl⟩ := List.mem_map.1 hd2
          obtain ⟨f, h1, h2⟩ := (ih2 z).1 hz
          refine ⟨f, by rw [← h1]; ring, ?_⟩
          refine Nat.Coprime.mul_left ?_ h2
          refine Nat.Coprime.pow_left e ((hpp.coprime_iff_not_dvd).2 ?_)
          intro h
          exact hndvd (h1 ▸ dvd_mul_of_dvd_right h z)
      · rintro ⟨f, h1, h2⟩
        by_cases hpd : p ∣ d
        · right
          have hpf : ¬ p ∣ f := fun h => by
            have := Nat.dvd_gcd hpd h
            rw [h2] at this
            exact hpp.one_lt.ne' (Nat.dvd_one.1 this)
          have hco : Nat.Coprime (p ^ e) f := Nat.Coprime.pow_left e ((hpp.coprime_iff_not_dvd).2 hpf)
          obtain ⟨z, hz⟩ : p ^ e ∣ d := hco.dvd_of_dvd_mul_right ⟨_, h1⟩
          subst hz
          refine List.mem_map.2 ⟨z, (ih2 z).2 ⟨f, ?_, h2.coprime_mul_left⟩, rfl⟩
          rw [mul_assoc] at h1
          exact Nat.eq_of_mul_eq_mul_left hpe h1
        · left
          have hco : Nat.Coprime (p ^ e) d := Nat.Coprime.pow_left e ((hpp.coprime_iff_not_dvd).2 hpd)
          obtain ⟨z, hz⟩ : p ^ e ∣ f := hco.dvd_of_dvd_mul_left ⟨_, h1⟩
          subst hz
          refine ⟨z, ?_, h2.coprime_mul_left_right⟩
          rw [mul_left_comm] at h1
          exact Nat.eq_of_mul_eq_mul_left hpe h1

/-- C140: `unitary_divisors(n)` for `n ≥ 2` with its factorization: the strictly increasing list of
the divisors `d` with `gcd(d, n/d) = 1`. -/
theorem C140_unitary_divisors (n : Nat) (hn : 2 ≤ n) (fac : List (Nat × Nat)) (hf : FactorsTo fac n) :
    (unitaryDivisors n fac).Pairwise (· < ·) ∧
    ∀ d, d ∈ unitaryDivisors n fac ↔ d ∣ n ∧ Nat.Coprime d (n / d) := by
  obtain ⟨h1, h2⟩ := sublists_unitary fac hf.primes.prime hf.primes.nodup hf.pos
  generalize hpks : fac.map (fun pe => pe.1 ^ pe.2) = pks at *
  have hprod : pks.prod = n := by rw [← hpks]; exact hf.prod
  have hlen : pks.length ≠ 0 := by
    intro h
    rw [List.length_eq_zero_iff] at h
    rw [h] at hprod
    simp at hprod
    omega
  obtain ⟨m, hm⟩ : ∃ m, pks.length = m + 1 := ⟨pks.length - 1, by omega⟩
  have hperm : ([1, n] ++ ((List.range' 1 (pks.length - 1)).flatMap (fun i => pks.sublistsLen i)).map
      (fun s : List Nat => s.foldl (· * ·) 1)).Perm (pks.sublists'.map List.prod) := by
    have h3 : (fun s : List Nat => s.foldl (· * ·) 1) = List.prod := by
      funext s; rw [List.prod_eq_foldl]
    rw [h3]
    have h4 := (List.range_bind_sublistsLen_perm pks).map List.prod
    refine List.Perm.trans ?_ h4
    rw [hm, List.range_eq_range', List.range'_succ, List.flatMap_cons, zero_add,
      List.range'_1_concat, List.flatMap_append, Nat.add_sub_cancel, List.flatMap_singleton,
      add_comm 1 m, ← hm, List.sublistsLen_length, List.sublistsLen_zero, List.map_append,
      List.map_append]
    simp only [List.map_cons, List.map_nil, List.prod_nil, hprod, List.cons_append, List.nil_append]
    refine List.Perm.cons 1 ?_
    exact (List.perm_append_comm (l₁ := [n]))
  have hnd : ([1, n] ++ ((List.range' 1 (pks.length - 1)).flatMap (fun i => pks.sublistsLen i)).map
      (fun s : List Nat => s.foldl (· * ·) 1)).Nodup := hperm.nodup_iff.2 h1
  unfold unitaryDivisors
  simp only [hpks]
  refine ⟨pySort_nat_lt _ hnd, fun d => ?_⟩
  rw [mem_pySort, hperm.mem_iff, h2, hf.prod]
  constructor
  · rintro ⟨f, h3, h4⟩
    have hd0 : 0 < d := by
      rcases Nat.eq_zero_or_pos d with rfl | h
      · simp at h3; omega
      · exact h
    refine ⟨⟨f, h3.symm⟩, ?_⟩
    rwa [← h3, Nat.mul_div_cancel_left f hd0]
  · rintro ⟨⟨f, h3⟩, h4⟩
    have hd0 : 0 < d := by
      rcases Nat.eq_zero_or_pos d with rfl | h
      · simp at h3; omega
      · exact h
    refine ⟨f, h3.symm, ?_⟩
    rwa [h3, Nat.mul_div_cancel_left f hd0] at h4

/-- C140: end to end. -/
theorem C140_unitary_divisors_call (fct : Nat → Nat → Option Nat) (n : Nat) (hn : 2 ≤ n)
    (hlt : OneLarge 999983 n) :
    ∃ L, unitaryDivisorsCall primeList fct n = some (.ok L) ∧ L.Pairwise (· < ·) ∧
      ∀ d, d ∈ L ↔ d ∣ n ∧ Nat.Coprime d (n / d) := by
  obtain ⟨fac, h1, -, h3⟩ := withFactor_real (α := List Nat) fct n (by omega) hlt
  exact ⟨_, by unfold unitaryDivisorsCall; rw [h3], C140_unitary_divisors n hn fac h1⟩

/-- C140: `unitary_divisors(1)` lists 1 twice. -/
theorem C140_unitary_divisors_one (fct : Nat → Nat → Option Nat) :
    unitaryDivisorsCall primeList fct 1 = some (.ok [1, 1]) := by
  obtain ⟨fac, h1, -, h3⟩ := withFactor_real (α := List Nat) fct 1 le_rfl (oneLarge_of_lt le_rfl (by norm_num))
  have : fac = [] := by
    cases fac with
    | nil => rfl
    | cons a l =>
      exfalso
      have h4 := h1.prod
      have hp := h1.primes.prime a (by simp)
      have he := h1.pos a (by simp)
      simp only [facProd, List.map_cons, List.prod_cons] at h4
      have h5 := Nat.eq_one_of_mul_eq_one_right h4
      rw [Nat.pow_eq_one] at h5
      have := hp.one_lt
      omega
  unfold unitaryDivisorsCall
  rw [h3, this]
  decide +kernel

/-- C140: `unitary_divisors(factorization=...)`, the documented call without `n`, always raises. -/
theorem C140_unitary_divisors_factorization (T : List Nat) (fct : Nat → Nat → Option Nat)
    (fac : Option (List (Int × Nat))) :
    unitaryDivisorsArgs T fct none fac =
      some (.error (if fac = some [] then .indexError else .typeError)) := by
  match fac with
  | none => rfl
  | some [] => rfl
  | some (pe :: L) => rfl

/-- C140: for `|n| ≥ 2`, `unitary_divisors(n, factorization)` with the factorization of
`|n|`, or with that of a negative number, which starts with `(-1, 1)`, is `unitary_divisors(n)`. -/
theorem C140_unitary_divisors_given (fct : Nat → Nat → Option Nat) (n : Int) (hn : 2 ≤ n.natAbs)
    (hlt : OneLarge 999983 n.natAbs) :
    ∃ L, IsSignedFactorization L n.natAbs ∧
      unitaryDivisorsArgs primeList fct (some n) (some L) =
        unitaryDivisorsArgs primeList fct (some n) none ∧
      unitaryDivisorsArgs primeList fct (some n) (some ((-1, 1) :: L)) =
        unitaryDivisorsArgs primeList fct (some n) none ∧
      ∃ D, unitaryDivisorsArgs primeList fct (some n) none = some (.ok D) := by
  obtain ⟨L, hL, h⟩ := C27_factor_real_one_large_partial fct n.natAbs (by omega)
    (by rw [Int.natAbs_natCast]; exact hlt)
  cases L with
  | nil => have := h.prod; rw [List.map_nil, List.prod_nil] at this; omega
  | cons pe L =>
    have hpe : pe.1 ≠ -1 := by
      rcases h.prime pe (by simp) with e | ⟨p, -, e⟩
      · have := h.sign.1 (by rw [← e]; simp)
        omega
      · omega
    have e : unitaryDivisorsArgs primeList fct (some n) none =
        some (unitaryBody (some n) (pe :: L)) := by
      unfold unitaryDivisorsArgs
      simp only [hL]
    rw [e]
    refine ⟨_, h, ?_, ?_, _, rfl⟩
    · simp only [unitaryDivisorsArgs, if_neg hpe]
    · simp only [unitaryDivisorsArgs, if_true]

/-- C140: for a negative `n` the list contains the negative number `n` instead of `|n|`. -/
theorem C140_unitary_divisors_negative (fct : Nat → Nat → Option Nat) (n : Int) (hn : n ≤ -2)
    (hlt : OneLarge 999983 n.natAbs) :
    ∃ L, unitaryDivisorsArgs primeList fct (some n) none = some (.ok L) ∧ n ∈ L := by
  obtain ⟨L, hL, -⟩ := C27_factor_real_one_large_partial fct n.natAbs (by omega)
    (by rw [Int.natAbs_natCast]; exact hlt)
  unfold unitaryDivisorsArgs
  simp only [hL, unitaryBody]
  exact ⟨_, rfl, by rw [mem_pySort]; simp⟩

example : unitaryBody (some (-12)) [(2, 2), (3, 1)] = .ok [-12, 1, 3, 4] := by decide +kernel

example : unitaryDivisors 60 [(2, 2), (3, 1), (5, 1)] = [1, 3, 4, 5, 12, 15, 20, 60] := by decide +kernel

end Rosemary.Props
