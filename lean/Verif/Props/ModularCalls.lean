import Verif.Model.ModularCalls
import Verif.Props.IntegerCalls
import Verif.Props.Enumeration

/-!
# Property C146: the functions of modular arithmetic called with numbers alone
-/

namespace Rosemary.Props

open Rosemary Rosemary.Core Rosemary.ArithFunctions Rosemary.Factorization Rosemary.Zn Rosemary.IntegerCalls
open Rosemary.Primality Rosemary.ModularCalls

/-- The factorization that `factor` finds if at most one prime factor is above 999983, and a correct one otherwise. -/
theorem factorOf_real (fct : Nat → Nat → Option Nat) : ∃ facOf : Nat → List (Nat × Nat),
    (∀ m, 1 ≤ m → FactorsTo (facOf m) m) ∧
    ∀ m, 1 ≤ m → OneLarge 999983 m → ∀ (α : Type) (k : List (Nat × Nat) → Option (Except PyErr α)),
      withFactor primeList fct m k = k (facOf m) := by
  have hex : ∀ m, ∃ fac : List (Nat × Nat), 1 ≤ m → FactorsTo fac m ∧ (OneLarge 999983 m →
      ∀ (α : Type) (k : List (Nat × Nat) → Option (Except PyErr α)), withFactor primeList fct m k = k fac) := by
    intro m
    by_cases h1 : 1 ≤ m
    · by_cases h2 : OneLarge 999983 m
      · obtain ⟨L, hL, h⟩ := C27_factor_real_one_large_partial fct m (by omega) (by simpa using h2)
        exact ⟨_, fun _ => ⟨(signed_toNat h1 h).1, fun _ α k => by unfold withFactor; rw [hL]⟩⟩
      · refine ⟨m.primeFactors.toList.map (fun p => (p, m.factorization p)), fun _ => ⟨⟨⟨?_, ?_⟩, ?_, ?_⟩, fun h => absurd h h2⟩⟩
        · intro pe hpe
          obtain ⟨p, hp, rfl⟩ := List.mem_map.1 hpe
          exact Nat.prime_of_mem_primeFactors (Finset.mem_toList.1 hp)
        · rw [List.map_map]
          have : (Prod.fst ∘ fun p => (p, m.factorization p)) = id := rfl
          rw [this, List.map_id]
          exact Finset.nodup_toList _
        · intro pe hpe
          obtain ⟨p, hp, rfl⟩ := List.mem_map.1 hpe
          have hp := Finset.mem_toList.1 hp
          exact (Nat.prime_of_mem_primeFactors hp).factorization_pos_of_dvd (by omega) (Nat.dvd_of_mem_primeFactors hp)
        · unfold facProd
          rw [List.map_map]
          show (m.primeFactors.toList.map (fun p => p ^ m.factorization p)).prod = m
          rw [Finset.prod_map_toList]
          exact Nat.prod_factorization_pow_eq_self (by omega)
    · exact ⟨[], fun h => absurd h h1⟩
  choose facOf h using hex
  exact ⟨facOf, fun m hm => (h m hm).1, fun m hm hlt => (h m hm).2 hlt⟩

private theorem phi_call (fct : Nat → Nat → Option Nat) (n : Nat) (hn : 1 ≤ n) (hlt : OneLarge 999983 n) :
    eulerPhiCall primeList fct n = some (.ok n.totient) := (C139_multiplicative_partial fct n hn hlt 0).1

/-- C146: `is_primitive_root(a, n)` tells whether `a` generates the units modulo `n`. -/
theorem C146_is_primitive_root_partial (fct : Nat → Nat → Option Nat) (a n : Int) (hlt : OneLarge 999983 n.toNat)
    (hlt' : OneLarge 999983 n.toNat.totient) :
    (n ≤ 1 → isPrimitiveRootCall primeList fct a n = some (.error .valueError)) ∧
    (2 ≤ n → ∃ b, isPrimitiveRootCall primeList fct a n = some (.ok b) ∧ (b = true ↔ GeneratesUnits a n.toNat)) := by
  refine ⟨fun h => by rw [isPrimitiveRootCall, if_pos h], fun h => ?_⟩
  obtain ⟨m, rfl⟩ := Int.eq_ofNat_of_zero_le (show 0 ≤ n by omega)
  obtain ⟨facOf, hf, hw⟩ := factorOf_real fct
  have hpos : 1 ≤ m.totient := Nat.totient_pos.2 (by omega)
  obtain ⟨b, h1, h2⟩ := (C23_is_primitive_root a m (facOf m.totient) (hf _ hpos)).2 (by omega)
  refine ⟨b, ?_, h2⟩
  rw [← h1, isPrimitiveRootCall, if_neg (show ¬ ((m : Int) ≤ 1) by omega), isPrimitiveRoot, if_neg (show ¬ (m ≤ 1) by omega)]
  have e4 : ((m : Int) > 4 ∧ (m : Int).fmod 4 = 0) ↔ (m > 4 ∧ m % 4 = 0) := by
    rw [Int.fmod_eq_emod_of_nonneg _ (by norm_num)]
    omega
  by_cases h4 : m > 4 ∧ m % 4 = 0
  · rw [if_pos h4, if_pos (e4.2 h4)]
  · rw [if_neg h4, if_neg (fun h => h4 (e4.1 h))]
    by_cases hg : Core.gcd a (m : Int) ≠ 1
    · rw [if_pos hg, if_pos hg]
    · rw [if_neg hg, if_neg hg, phi_call fct m (by omega) hlt]
      simp only [andThen, primeDivisorsCall, Int.natAbs_natCast]
      rw [hw _ hpos hlt']
      rfl

/-- C146: `multiplicative_order(a, n)` is the order of `a` modulo `n`; ValueError is raised if `a` is no unit modulo `n`, and
for `n ≤ 0`. -/
theorem C146_multiplicative_order_partial (fct : Nat → Nat → Option Nat) (a n : Int) (hlt : OneLarge 999983 n.toNat)
    (hlt' : OneLarge 999983 n.toNat.totient) :
    (n ≤ 0 ∨ Int.gcd a n ≠ 1 → multiplicativeOrderCall primeList fct a n = some (.error .valueError)) ∧
    (2 ≤ n → Int.gcd a n = 1 → ∃ k : Nat, multiplicativeOrderCall primeList fct a n = some (.ok (some k)) ∧ 1 ≤ k ∧
      n ∣ a ^ k - 1 ∧ ∀ j : Nat, 1 ≤ j → n ∣ a ^ j - 1 → k ≤ j) := by
  constructor
  · intro h
    unfold multiplicativeOrderCall
    rw [gcd_eq]
    by_cases hg : ((Int.gcd a n : Nat) : Int) ≠ 1
    · rw [if_pos hg]
    · rw [if_neg hg]
      have h0 : n ≤ 0 := by
        rcases h with h | h
        · exact h
        · exact absurd (by exact_mod_cast h) hg
      rw [(C139_multiplicative_error primeList fct n h0 0).1]
      rfl
  · intro h2 hg
    obtain ⟨m, rfl⟩ := Int.eq_ofNat_of_zero_le (show 0 ≤ n by omega)
    obtain ⟨facOf, hf, hw⟩ := factorOf_real fct
    have hpos : 1 ≤ m.totient := Nat.totient_pos.2 (by omega)
    obtain ⟨k, h1, h3⟩ := (C26_multiplicative_order a m (by omega) (facOf m.totient) (hf _ hpos)).2 hg
    refine ⟨k, ?_, h3⟩
    rw [← h1, multiplicativeOrderCall, multiplicativeOrder]
    have hg' : ¬ (Core.gcd a (m : Int) ≠ 1) := by rw [gcd_eq, hg]; simp
    rw [if_neg hg', if_neg hg', phi_call fct m (by omega) hlt]
    simp only [andThen, divisorsCall, Int.natAbs_natCast]
    rw [hw _ hpos hlt']
    rfl

private theorem quad_call (fct : Nat → Nat → Option Nat) (rnd : Nat → Nat → Int) (a b c : Int) (n : Nat) (hn : 2 ≤ n)
    (ha : a ≠ 0) (hlt : OneLarge 999983 (4 * a.natAbs * n)) : ∃ fac factorOf, FactorsTo fac n ∧
      (∀ m, 2 ≤ m → FactorsTo (factorOf m) m) ∧
      quadraticCongruenceCall primeList fct rnd a b c n = quadraticCongruence rnd a b c n fac factorOf := by
  obtain ⟨facOf, hf, hw⟩ := factorOf_real fct
  have hlt' : OneLarge 999983 n := hlt.of_dvd (dvd_mul_left _ _)
  refine ⟨facOf n, facOf, hf n (by omega), fun m hm => hf m (by omega), ?_⟩
  unfold quadraticCongruenceCall quadraticCongruence
  rw [hw n (by omega) hlt']
  dsimp only
  split
  · unfold andThen
    cases sqrtsModN rnd (b * b - 4 * a * c) (facOf n) with
    | none => rfl
    | some x => cases x with
      | error e => rfl
      | ok ys =>
        dsimp only
        cases inverseMod (2 * a) n <;> rfl
  · cases hs : splitCoprime n 1 (4 * a) with
    | none => rfl
    | some r =>
      obtain ⟨a1, a2⟩ := r
      obtain ⟨s1, s2, -, s4, -⟩ := splitCoprime_correct n 1 (4 * a) (a1, a2) (by omega) hs
      have hpos := s2 one_pos
      dsimp only at s1 hpos ⊢
      have hdvd : (a1 * n).toNat ∣ 4 * a.natAbs * n := by
        have h1 : a1 * n ∣ 4 * a * n := ⟨a2, by rw [← one_mul (4 * a), ← s1]; ring⟩
        have h2 := Int.natAbs_dvd_natAbs.2 h1
        rw [Int.natAbs_mul, Int.natAbs_mul, Int.natAbs_natCast] at h2
        have h3 : (a1 * n).toNat = a1.natAbs * n := by
          have : 0 ≤ a1 * n := mul_nonneg hpos.le (by omega)
          rw [← Int.natAbs_natCast n, ← Int.natAbs_mul, Int.natAbs_natCast]
          omega
        rw [h3]
        simpa [Int.natAbs_mul] using h2
      have h1 : 1 ≤ (a1 * n).toNat := by
        have : 0 < a1 * n := mul_pos hpos (by omega)
        omega
      unfold andThen sqrtsModNCall
      rw [hw _ h1 (hlt.of_dvd hdvd)]
      cases sqrtsModN rnd (b * b - 4 * a * c) (facOf (a1 * n).toNat) with
      | none => rfl
      | some x => cases x with
        | error e => rfl
        | ok ys =>
          dsimp only
          cases linearAll a b (a1 * n) ys <;> rfl

/-- C146: a result of `quadratic_congruence([a, b, c], n)` is the increasing list of all roots modulo `n`, and the call ends
unless the random choices never hit a nonresidue. -/
theorem C146_quadratic_congruence_partial (fct : Nat → Nat → Option Nat) (rnd : Nat → Nat → Int) (a b c : Int) (n : Nat)
    (hn : 2 ≤ n) (ha : a ≠ 0) (hlt : OneLarge 999983 (4 * a.natAbs * n)) :
    (∀ r, quadraticCongruenceCall primeList fct rnd a b c n = some r → ∃ L, r = .ok L ∧ L.Pairwise (· < ·) ∧
      ∀ x, x ∈ L ↔ 0 ≤ x ∧ x < n ∧ (n : Int) ∣ a * x ^ 2 + b * x + c) ∧
    ((∀ p, p.Prime → p % 8 = 1 → ∃ i, ¬ IsSquare ((rnd p i : Int) : ZMod p)) →
      ∃ r, quadraticCongruenceCall primeList fct rnd a b c n = some r) := by
  obtain ⟨fac, factorOf, h1, h2, h3⟩ := quad_call fct rnd a b c n hn ha hlt
  rw [h3]
  exact ⟨fun r h => C22_quadratic_congruence rnd a b c n hn fac h1 factorOf h2 r h,
    fun h => C22_quadratic_congruence_total rnd a b c ha n hn fac h1 factorOf h2 h⟩

/-- C146: a result of `fibonacci_primitive_roots(p)` is the increasing list of all primitive roots `x` with `x² ≡ x + 1`, and the
call ends unless the random choices never hit a nonresidue. -/
theorem C146_fibonacci_primitive_roots_partial (fct : Nat → Nat → Option Nat) (rnd : Nat → Int) (p : Nat) (hp : p.Prime)
    (hlt : OneLarge 999983 (p - 1)) :
    (∀ r, fibonacciPrimitiveRootsCall primeList fct rnd p = some r → ∃ L, r = .ok L ∧ L.Pairwise (· < ·) ∧
      ∀ x : Int, x ∈ L ↔ 0 ≤ x ∧ x < p ∧ GeneratesUnits x p ∧ (p : Int) ∣ x ^ 2 - (x + 1)) ∧
    ((p % 8 = 1 → ∃ i, ¬ IsSquare ((rnd i : Int) : ZMod p)) →
      ∃ r, fibonacciPrimitiveRootsCall primeList fct rnd p = some r) := by
  obtain ⟨facOf, hf, hw⟩ := factorOf_real fct
  have h2 := hp.two_le
  have e : fibonacciPrimitiveRootsCall primeList fct rnd p = fibonacciPrimitiveRoots rnd p (facOf (p - 1)) := by
    unfold fibonacciPrimitiveRootsCall fibonacciPrimitiveRoots
    split
    · rfl
    · split
      · rfl
      · split
        · rfl
        · unfold andThen
          cases jacobiSymbol 5 p with
          | error e => rfl
          | ok j =>
            dsimp only
            split
            · rfl
            · cases sqrtsModP rnd 5 p with
              | none => rfl
              | some x => cases x with
                | error e => rfl
                | ok l =>
                  dsimp only
                  cases inverseMod 2 p with
                  | error e => rfl
                  | ok i =>
                    dsimp only [primeDivisorsCall]
                    rw [Int.natAbs_natCast, hw (p - 1) (by omega) hlt]
  rw [e]
  exact ⟨fun r h => C79_fibonacci_primitive_roots rnd p hp _ (hf _ (by omega)) r h, fun h => C79_total rnd p hp _ h⟩

private theorem necklaceLoop_call (fct : Nat → Nat → Option Nat) (facOf : Nat → List (Nat × Nat)) (n k : Nat)
    (hf : ∀ m, 1 ≤ m → FactorsTo (facOf m) m) : ∀ (ds : List Nat) (ss : Nat), (∀ d ∈ ds, 1 ≤ d ∧ OneLarge 999983 d) →
    necklaceLoopCall primeList fct n k ds ss = some (Enumeration.necklaceLoop facOf n k ds ss)
  | [], ss, _ => rfl
  | d :: ds, ss, h => by
    obtain ⟨h1, h2⟩ := h d List.mem_cons_self
    rw [necklaceLoopCall, Enumeration.necklaceLoop, phi_call fct d h1 h2]
    have ev : ∃ fac, validateInt d (facOf d) = .ok fac ∧ eulerPhi fac = d.totient := by
      unfold validateInt
      by_cases hd : d = 1
      · subst hd
        exact ⟨[(1, 1)], by rw [if_pos (by norm_num)], C29_euler_phi 1 _ (Or.inl ⟨rfl, rfl⟩)⟩
      · exact ⟨facOf d, by rw [if_neg (by omega), if_neg (by omega)], C29_euler_phi d _ (hf d h1).isFactorization⟩
    obtain ⟨fac, e1, e2⟩ := ev
    simp only [andThen, e1, e2]
    exact necklaceLoop_call fct facOf n k hf ds _ (fun d hd => h d (List.mem_cons_of_mem _ hd))

/-- C146: `necklaces(n, k)` counts the words of length `n` over `k` letters up to rotation; `necklaces(0, k)` raises
ValueError. -/
theorem C146_necklaces_partial (fct : Nat → Nat → Option Nat) (n k : Nat) (hlt : OneLarge 999983 n) :
    (1 ≤ n → necklacesCall primeList fct n k = some (.ok (Nat.card {c : Cycle (Fin k) // c.length = n}))) ∧
    (n = 0 → necklacesCall primeList fct n k = some (.error .valueError)) := by
  constructor
  · intro hn
    obtain ⟨facOf, hf, hw⟩ := factorOf_real fct
    have h1 := C58_necklaces_partial facOf n k hn (fun d hd => hf d (Nat.pos_of_dvd_of_pos hd hn))
    obtain ⟨-, h2⟩ := C28_xdivisors (facOf n) (hf n hn).primes
    rw [(hf n hn).prod] at h2
    unfold necklacesCall
    rw [hw n hn hlt, necklaceLoop_call fct facOf n k hf _ 0 (fun d hd => by
      have := (h2 d).1 hd
      exact ⟨Nat.pos_of_dvd_of_pos this hn, hlt.of_dvd this⟩)]
    rw [← h1, Enumeration.necklaces, if_neg (by simp)]
    unfold andThen
    cases Enumeration.necklaceLoop facOf n k (xdivisors (facOf n)) 0 <;> rfl
  · rintro rfl
    unfold necklacesCall withFactor
    rw [show ((0 : Nat) : Int) = 0 from rfl, C27_factor_zero]

private theorem large_pow (e : Nat) (he : (e : Int) = 341550071728320) : ¬ (341550071728321 : Int) ∣ 23 ^ e - 1 := by
  have h1 := C04_power_mod_partial 23 e 341550071728321 (by norm_num) (by omega) (by norm_num) (by norm_num)
  have h2 : powerMod 23 341550071728320 341550071728321 = .ok 188759586251536 := by decide +kernel
  rw [Int.toNat_natCast] at h1
  rw [he, h2] at h1
  have h3 : (188759586251536 : Int) = 23 ^ e % 341550071728321 := by injection h1
  intro hd
  have h5 := Int.emod_emod_of_dvd (23 ^ e) (dvd_refl (341550071728321 : Int))
  have h6 := (Int.emod_eq_emod_iff_emod_sub_eq_zero).2 (Int.emod_eq_zero_of_dvd hd)
  rw [h6] at h3
  norm_num at h3

private theorem gcd_large : Int.gcd 23 341550071728321 = 1 := by decide +kernel

private theorem smooth_large : OneLarge 999983 341550071728320 := by
  intro p q hp _ h1 _ hd
  have h2 : p ∣ 341550071728320 := (dvd_mul_right p q).trans hd
  have e : (341550071728320 : Nat) = 2 ^ 6 * 3 * 5 * 7 * 13 * 4397 * 889171 := by norm_num
  rw [e] at h2
  have small : ∀ m : Nat, 0 < m → m < 999983 → ¬ p ∣ m := fun m h0 hm hd => by
    have := Nat.le_of_dvd h0 hd
    omega
  rcases hp.dvd_mul.1 h2 with h2 | h2
  · rcases hp.dvd_mul.1 h2 with h2 | h2
    · exact small _ (by norm_num) (by norm_num) h2
    · exact small _ (by norm_num) (by norm_num) h2
  · exact small _ (by norm_num) (by norm_num) h2

/-- C146, the missing part: above the range of the table the results can be wrong.  For `n = 341550071728321`, which is
`10670053 * 32010157` and taken for a prime, `is_primitive_root(23, n)` is True, although there is no primitive root, and
`multiplicative_order(23, n)` is None, although 23 is a unit. -/
theorem C146_violation (fct : Nat → Nat → Option Nat) :
    isPrimitiveRootCall primeList fct 23 341550071728321 = some (.ok true) ∧ ¬ GeneratesUnits 23 341550071728321 ∧
    multiplicativeOrderCall primeList fct 23 341550071728321 = some (.ok none) ∧ Int.gcd 23 341550071728321 = 1 := by
  obtain ⟨facOf, hf, hw⟩ := factorOf_real fct
  have hphi := (C139_violation fct).1
  have hpos : 1 ≤ 341550071728320 := by norm_num
  have hfac := hf _ hpos
  have hg : ¬ (Core.gcd 23 341550071728321 ≠ 1) := by rw [gcd_eq, gcd_large]; simp
  have nopow : ∀ d : Nat, d ∣ 341550071728320 → ¬ (pyPow 23 d 341550071728321 = 1) := by
    rintro d ⟨c, hc⟩ h
    refine large_pow (d * c) (by rw [← hc]; rfl) ?_
    have h1 : ((341550071728321 : Nat) : Int) ∣ 23 ^ d - 1 := by
      unfold pyPow at h
      rw [Int.fmod_eq_emod_of_nonneg _ (by norm_num)] at h
      exact Int.dvd_of_emod_eq_zero (Int.emod_eq_emod_iff_emod_sub_eq_zero.1 (by rw [h]; rfl))
    rw [pow_mul]
    have h2 := sub_dvd_pow_sub_pow ((23 : Int) ^ d) 1 c
    rw [one_pow] at h2
    exact h1.trans h2
  refine ⟨?_, ?_, ?_, gcd_large⟩
  · rw [isPrimitiveRootCall, if_neg (by norm_num), if_neg (by decide), if_neg hg, hphi]
    simp only [andThen, primeDivisorsCall, Int.natAbs_natCast]
    rw [hw _ hpos smooth_large]
    simp only [noTrivialPower]
    congr 2
    rw [List.all_eq_true]
    intro d hd
    rw [bne_iff_ne]
    have hd' := ((C28_prime_divisors _ hfac.primes hfac.pos).2 d).1 hd
    rw [hfac.prod] at hd'
    exact nopow _ (Nat.div_dvd_of_dvd hd'.2)
  · intro h
    rw [generatesUnits_iff (by norm_num)] at h
    obtain ⟨u, hu, hall⟩ := h
    have h1 := orderOf_eq_card_of_forall_mem_zpowers hall
    rw [Nat.card_eq_fintype_card, ZMod.card_units_eq_totient, (C139_violation fct).2.1] at h1
    have h2 : u ^ 32010156 = 1 := by
      apply Units.ext
      rw [Units.val_pow_eq_pow_val, hu, Units.val_one]
      have hp1 : Nat.Prime 10670053 := by norm_num
      have hp2 : Nat.Prime 32010157 := by norm_num
      have c1 : IsCoprime (23 : Int) (10670053 : Nat) := Int.isCoprime_iff_gcd_eq_one.2 (by decide +kernel)
      have c2 : IsCoprime (23 : Int) (32010157 : Nat) := Int.isCoprime_iff_gcd_eq_one.2 (by decide +kernel)
      have f1 := (Int.ModEq.pow_card_sub_one_eq_one hp1 c1).pow 3
      have f2 := Int.ModEq.pow_card_sub_one_eq_one hp2 c2
      rw [← pow_mul, one_pow] at f1
      have key : ∀ e : Nat, e = 32010156 → ((23 : Int) : ZMod 341550071728321) ^ e = 1 := by
        intro e he
        have e1 : (10670053 - 1) * 3 = e := by rw [he]
        have e2 : 32010157 - 1 = e := by rw [he]
        rw [e1] at f1
        rw [e2] at f2
        have d1 := f1.symm.dvd
        have d2 := f2.symm.dvd
        have d3 : ((341550071728321 : Nat) : Int) ∣ 23 ^ e - 1 := by
          rw [show ((341550071728321 : Nat) : Int) = ((10670053 : Nat) : Int) * ((32010157 : Nat) : Int) by norm_num]
          exact IsCoprime.mul_dvd (Int.isCoprime_iff_gcd_eq_one.2 (by decide +kernel)) d1 d2
        have d4 := (ZMod.intCast_zmod_eq_zero_iff_dvd _ _).2 d3
        rw [Int.cast_sub, Int.cast_pow, Int.cast_one, sub_eq_zero] at d4
        exact d4
      exact key _ rfl
    have h3 := orderOf_le_of_pow_eq_one (by norm_num) h2
    rw [h1] at h3
    norm_num at h3
  · rw [multiplicativeOrderCall, if_neg hg, hphi]
    simp only [andThen, divisorsCall, Int.natAbs_natCast]
    rw [hw _ hpos smooth_large]
    refine congrArg (fun o => some (Except.ok o)) ?_
    rw [List.find?_eq_none]
    intro d hd h
    have hd' := ((C28_divisors _ hfac.primes).2 d).1 hd
    rw [hfac.prod] at hd'
    exact nopow d hd' (by simpa using h)

/-- 3 is a primitive root modulo 7, and 2 has order 3. -/
example : isPrimitiveRootCall primeList (fun _ _ => none) 3 7 = some (.ok true) := by
  obtain ⟨b, h1, h2⟩ := (C146_is_primitive_root_partial (fun _ _ => none) 3 7 (oneLarge_real (by decide) (by decide)).1
    (oneLarge_real (by decide) (by decide)).2).2 (by norm_num)
  rw [h1, h2.2 ⟨by decide, fun x hx => ?_⟩]
  have h3 : (7 : Int) ∣ x - x % 7 := Int.dvd_self_sub_emod
  have h4 : ∃ k : Nat, (7 : Int) ∣ 3 ^ k - x % 7 := by
    have h5 : ¬ (7 : Int) ∣ x := fun hd => by
      have := Int.dvd_coe_gcd hd (dvd_refl _)
      rw [show Int.gcd x (7 : Int) = 1 from hx] at this
      norm_num at this
    have h6 : x % 7 ≠ 0 := fun h => h5 (Int.dvd_of_emod_eq_zero h)
    have h7 := Int.emod_nonneg x (show (7 : Int) ≠ 0 by norm_num)
    have h8 := Int.emod_lt_of_pos x (show (0 : Int) < 7 by norm_num)
    generalize x % 7 = y at *
    have : y = 1 ∨ y = 2 ∨ y = 3 ∨ y = 4 ∨ y = 5 ∨ y = 6 := by omega
    rcases this with rfl | rfl | rfl | rfl | rfl | rfl
    · exact ⟨0, by norm_num⟩
    · exact ⟨2, by norm_num⟩
    · exact ⟨1, by norm_num⟩
    · exact ⟨4, by norm_num⟩
    · exact ⟨5, by norm_num⟩
    · exact ⟨3, by norm_num⟩
  obtain ⟨k, hk⟩ := h4
  refine ⟨k, ?_⟩
  have := dvd_sub hk h3
  rwa [show (3 : Int) ^ k - x % 7 - (x - x % 7) = 3 ^ k - x by ring] at this

/-- The roots of `x² + 3x - 18` modulo 1000 (the first example in the docstring). -/
example (rnd : Nat → Nat → Int) (r : Except PyErr (List Int))
    (h : quadraticCongruenceCall primeList (fun _ _ => none) rnd 1 3 (-18) 1000 = some r) :
    ∃ L, r = .ok L ∧ 3 ∈ L ∧ 378 ∈ L ∧ 619 ∈ L ∧ 994 ∈ L ∧ 4 ∉ L := by
  obtain ⟨L, h1, -, h2⟩ := (C146_quadratic_congruence_partial (fun _ _ => none) rnd 1 3 (-18) 1000 (by norm_num) (by norm_num)
    (oneLarge_real (by decide) (by decide)).1).1 r h
  refine ⟨L, h1, ?_, ?_, ?_, ?_, ?_⟩ <;> rw [h2] <;> norm_num

example : ∃ N, necklacesCall primeList (fun _ _ => none) 10 5 = some (.ok N) :=
  ⟨_, (C146_necklaces_partial _ 10 5 (oneLarge_real (by decide) (by decide)).1).1 (by norm_num)⟩

end Rosemary.Props
