import Verif.Model.RandomTests
import Verif.Props.Primality
import Verif.Props.SquareRoots
import Verif.Props.ModularCalls
import Verif.Props.Floats
import Verif.Lemmas.RandomRuns

/-!
# Properties C150 and C151: `random_prime`, and square roots modulo `n`, under random choices
-/

namespace Rosemary.Props

open Rosemary Rosemary.Core Rosemary.Primality Rosemary.Zn Rosemary.Spec Rosemary.RandomRuns
open Rosemary.ModularCalls Rosemary.IntegerCalls
open MeasureTheory
open scoped ENNReal

/-! ## C150 -/

private def PrimeInt (x : ℤ) : Prop := ∃ p : ℕ, p.Prime ∧ x = p

private theorem isPrime_int (T : List Nat) (hT : IsPrimeTable T) (x : ℤ) :
    (PrimeInt x → isPrime T x = .ok true) ∧ (¬ PrimeInt x → isPrime T x = .ok false) := by
  rw [isPrime_spec T hT]
  constructor
  · rintro ⟨p, hp, rfl⟩
    simp [hp]
  · intro h
    rw [Except.ok.injEq, decide_eq_false_iff_not]
    rintro ⟨h1, h2⟩
    exact h ⟨x.toNat, h2, by omega⟩

private theorem randomPrimeLoop_iff (T : List Nat) (hT : IsPrimeTable T) (rnd : ℕ → ℤ) (r : Except PyErr ℤ) :
    randomPrimeLoop T rnd 0 = some r ↔ ∃ i, (∀ j < i, ¬ PrimeInt (rnd j)) ∧ PrimeInt (rnd i) ∧ r = .ok (rnd i) := by
  constructor
  · intro h
    have key := randomPrimeLoop.partial_correctness T rnd
      (fun k r => ∃ i, k ≤ i ∧ (∀ j, k ≤ j → j < i → ¬ PrimeInt (rnd j)) ∧ PrimeInt (rnd i) ∧ r = .ok (rnd i)) (by
      intro f ih k r h
      by_cases hp : PrimeInt (rnd k)
      · rw [(isPrime_int T hT _).1 hp] at h
        cases h
        exact ⟨k, le_rfl, fun j _ _ => by omega, hp, rfl⟩
      · rw [(isPrime_int T hT _).2 hp] at h
        obtain ⟨i, h1, h2, h3⟩ := ih _ _ h
        refine ⟨i, by omega, fun j h4 h5 => ?_, h3⟩
        rcases Nat.eq_or_lt_of_le h4 with rfl | h6
        · exact hp
        · exact h2 j h6 h5) 0 r h
    obtain ⟨i, -, h2, h3⟩ := key
    exact ⟨i, fun j hj => h2 j (Nat.zero_le _) hj, h3⟩
  · rintro ⟨i, h1, h2, rfl⟩
    have : ∀ k, k ≤ i → randomPrimeLoop T rnd (i - k) = some (.ok (rnd i)) := by
      intro k
      induction k with
      | zero =>
        intro _
        rw [randomPrimeLoop, Nat.sub_zero, (isPrime_int T hT _).1 h2]
      | succ k ih =>
        intro hk
        rw [randomPrimeLoop, (isPrime_int T hT _).2 (h1 _ (by omega))]
        dsimp only
        rw [show i - (k + 1) + 1 = i - k by omega]
        exact ih (by omega)
    have := this i le_rfl
    rwa [Nat.sub_self] at this

/-- C150: `random_prime(a, b)` returns each prime of the interval with the same probability. -/
theorem C150_random_prime_uniform (T : List Nat) (hT : IsPrimeTable T) (a b : ℕ) (p : ℕ) (hp : p.Prime) (ha : a ≤ p)
    (hb : p ≤ b) :
    Measure.infinitePi (fun _ : ℕ => randintLaw a b) {ω | randomPrimeCall T a b ω = some (.ok (p : ℤ))} =
      1 / (((Finset.Icc a b).filter Nat.Prime).card : ℝ≥0∞) := by
  classical
  have hab : (a : ℤ) ≤ b := by omega
  have h1 : {ω : ℕ → ℤ | randomPrimeCall T a b ω = some (.ok (p : ℤ))} =
      {ω : ℕ → ℤ | ∃ i : ℕ, (∀ j < i, ¬ PrimeInt (ω j)) ∧ ω i = (p : ℤ)} := by
    ext ω
    simp only [Set.mem_setOf_eq]
    unfold randomPrimeCall
    rw [if_neg (by omega), randomPrimeLoop_iff T hT]
    refine exists_congr fun i => ⟨?_, ?_⟩
    · rintro ⟨h1, -, h3⟩
      rw [Except.ok.injEq] at h3
      exact ⟨h1, h3.symm⟩
    · rintro ⟨h1, h2⟩
      exact ⟨h1, ⟨p, hp, h2⟩, by rw [h2]⟩
  rw [h1, first_success _ _ ⟨p, hp, rfl⟩, randintLaw_singleton (by omega) (by omega), randintLaw_set hab]
  have h2 : ((Finset.Icc (a : ℤ) b).filter PrimeInt).card = ((Finset.Icc a b).filter Nat.Prime).card := by
    symm
    refine Finset.card_bij (fun x _ => (x : ℤ)) ?_ ?_ ?_
    · intro x hx
      rw [Finset.mem_filter, Finset.mem_Icc] at hx ⊢
      exact ⟨⟨by omega, by omega⟩, x, hx.2, rfl⟩
    · intro x _ y _ h; exact_mod_cast h
    · intro y hy
      rw [Finset.mem_filter, Finset.mem_Icc] at hy
      obtain ⟨hy, q, hq, rfl⟩ := hy
      exact ⟨q, by rw [Finset.mem_filter, Finset.mem_Icc]; exact ⟨⟨by omega, by omega⟩, hq⟩, rfl⟩
  rw [h2]
  set N : ℕ := ((b : ℤ) + 1 - a).toNat
  have hN : (N : ℝ≥0∞) ≠ 0 := by
    have : N ≠ 0 := by omega
    exact_mod_cast this
  have hM : ((((Finset.Icc a b).filter Nat.Prime).card : ℕ) : ℝ≥0∞) ≠ 0 := by
    have : ((Finset.Icc a b).filter Nat.Prime).card ≠ 0 :=
      (Finset.card_pos.2 ⟨p, by rw [Finset.mem_filter, Finset.mem_Icc]; exact ⟨⟨ha, hb⟩, hp⟩⟩).ne'
    exact_mod_cast this
  rw [ENNReal.div_eq_inv_mul, ENNReal.inv_div (Or.inl (ENNReal.natCast_ne_top N)) (Or.inl hN), one_div, one_div, mul_comm,
    ENNReal.div_eq_inv_mul, mul_left_comm, ENNReal.inv_mul_cancel hN (ENNReal.natCast_ne_top N), mul_one]

/-- C150: if there is a prime in the interval, `random_prime(a, b)` returns with probability one; if there is none, it never
does, whatever is drawn; for an empty interval ValueError is raised. -/
theorem C150_random_prime_returns (T : List Nat) (hT : IsPrimeTable T) (a b : ℤ) :
    ((∃ p : ℕ, p.Prime ∧ a ≤ p ∧ (p : ℤ) ≤ b) → ∀ᵐ ω ∂(Measure.infinitePi fun _ : ℕ => randintLaw a b),
      ∃ p : ℕ, p.Prime ∧ randomPrimeCall T a b ω = some (.ok (p : ℤ))) ∧
    (a ≤ b → (¬ ∃ p : ℕ, p.Prime ∧ a ≤ p ∧ (p : ℤ) ≤ b) → ∀ ω : ℕ → ℤ, (∀ i, a ≤ ω i ∧ ω i ≤ b) →
      randomPrimeCall T a b ω = none) ∧
    (b < a → ∀ ω, randomPrimeCall T a b ω = some (.error .valueError)) := by
  refine ⟨?_, ?_, ?_⟩
  · rintro ⟨p, hp, h1, h2⟩
    have key := ae_frequently (fun _ : ℕ => randintLaw a b) (fun j => {j})
      (by intro i j hij; simpa [Function.onFun] using hij) (fun _ => {(p : ℤ)}) (fun _ => MeasurableSet.singleton _)
      (randintLaw a b {(p : ℤ)}) (randintLaw_singleton_ne h1 h2) (by intro j; simp)
    filter_upwards [key] with ω hω
    obtain ⟨j, -, hj⟩ := hω 0
    have hj : ω j = p := hj j (by simp)
    have hex : ∃ i, PrimeInt (ω i) := ⟨j, p, hp, hj⟩
    classical
    obtain ⟨q, hq, h3⟩ := Nat.find_spec hex
    refine ⟨q, hq, ?_⟩
    unfold randomPrimeCall
    rw [if_neg (by omega), randomPrimeLoop_iff T hT]
    exact ⟨Nat.find hex, fun j hj => Nat.find_min hex hj, Nat.find_spec hex, by rw [h3]⟩
  · intro hab hno ω hω
    unfold randomPrimeCall
    rw [if_neg (by omega)]
    by_contra hc
    obtain ⟨r, hr⟩ := Option.ne_none_iff_exists'.1 hc
    obtain ⟨i, -, ⟨p, hp, h1⟩, -⟩ := (randomPrimeLoop_iff T hT ω r).1 hr
    have := hω i
    exact hno ⟨p, hp, by omega, by omega⟩
  · intro h ω
    unfold randomPrimeCall
    rw [if_pos h]

/-- From 10 to 20 each of the four primes is returned with probability 1/4; from 24 to 28 the call does not end. -/
example : Measure.infinitePi (fun _ : ℕ => randintLaw (10 : ℕ) (20 : ℕ))
      {ω | randomPrimeCall [2, 3, 5, 7] (10 : ℕ) (20 : ℕ) ω = some (.ok (13 : ℕ))} = 1 / (4 : ℕ) ∧
    randomPrimeCall [2, 3, 5, 7] 24 28 (fun i => if i = 0 then 25 else 27) = none := by
  constructor
  · have := C150_random_prime_uniform _ smallTable_isPrimeTable 10 20 13 (by norm_num) (by norm_num) (by norm_num)
    rw [show ((Finset.Icc 10 20).filter Nat.Prime).card = 4 by decide +kernel] at this
    exact this
  · refine (C150_random_prime_returns _ smallTable_isPrimeTable 24 28).2.1 (by norm_num) ?_ _ ?_
    · rintro ⟨p, hp, h1, h2⟩
      have h1 : 24 ≤ p := by omega
      have h2 : p ≤ 28 := by omega
      interval_cases p <;> revert hp <;> norm_num
    · intro i
      by_cases h : i = 0 <;> simp [h]

/-! ## C151 -/

private theorem card_nonsquare (p : ℕ) [hp : Fact p.Prime] (h2 : p ≠ 2) :
    2 * ((Finset.univ : Finset (ZMod p)).filter fun x => ¬ IsSquare x).card = p - 1 := by
  classical
  have h1 := quadraticChar_sum_zero (F := ZMod p) (by rw [ZMod.ringChar_zmod_n]; exact h2)
  have h3 : ∀ x : ZMod p, quadraticChar (ZMod p) x = (if x ≠ 0 ∧ IsSquare x then 1 else 0) - (if ¬ IsSquare x then 1 else 0) := by
    intro x
    by_cases hx : x = 0
    · subst hx; simp
    · by_cases hs : IsSquare x
      · rw [(quadraticChar_one_iff_isSquare hx).2 hs]; simp [hx, hs]
      · rw [quadraticChar_neg_one_iff_not_isSquare.2 hs]; simp [hs]
  simp only [h3, Finset.sum_sub_distrib, Finset.sum_boole] at h1
  have h4 : (Finset.univ.filter fun x : ZMod p => x ≠ 0 ∧ IsSquare x).card +
      (Finset.univ.filter fun x : ZMod p => ¬ IsSquare x).card + 1 = p := by
    have e1 : (Finset.univ.filter fun x : ZMod p => x ≠ 0).card + 1 = p := by
      rw [Finset.filter_ne', Finset.card_erase_of_mem (Finset.mem_univ _), Finset.card_univ, ZMod.card]
      have := hp.out.pos
      omega
    refine Eq.trans ?_ e1
    rw [← Finset.card_union_of_disjoint]
    · congr 2
      ext x
      simp only [Finset.mem_union, Finset.mem_filter, Finset.mem_univ, true_and]
      constructor
      · rintro (h | h)
        · exact h.1
        · rintro rfl; simp at h
      · intro h
        by_cases hs : IsSquare x
        · exact Or.inl ⟨h, hs⟩
        · exact Or.inr hs
    · rw [Finset.disjoint_left]
      intro x hx hx'
      exact (Finset.mem_filter.1 hx').2 (Finset.mem_filter.1 hx).2.2
  have h5 : (Finset.univ.filter fun x : ZMod p => x ≠ 0 ∧ IsSquare x).card =
      (Finset.univ.filter fun x : ZMod p => ¬ IsSquare x).card := by exact_mod_cast sub_eq_zero.1 h1
  omega

private theorem card_draws (p : ℕ) (hp : p.Prime) (h2 : p ≠ 2) :
    ((Finset.Icc (2 : ℤ) ((p : ℤ) - 1)).filter fun d => jacobiSymbol d p = .ok (-1)).card = (p - 1) / 2 := by
  haveI : Fact p.Prime := ⟨hp⟩
  have h1 := card_nonsquare p h2
  have hp0 := hp.pos
  have : ((Finset.Icc (2 : ℤ) ((p : ℤ) - 1)).filter fun d => jacobiSymbol d p = .ok (-1)).card =
      ((Finset.univ : Finset (ZMod p)).filter fun x => ¬ IsSquare x).card := by
    refine Finset.card_bij (fun x _ => (x : ZMod p)) ?_ ?_ ?_
    · intro x hx
      rw [Finset.mem_filter] at hx ⊢
      exact ⟨Finset.mem_univ _, (jacobi_neg_one h2 x).1 hx.2⟩
    · intro x hx y hy h
      rw [Finset.mem_filter, Finset.mem_Icc] at hx hy
      have := (ZMod.intCast_eq_intCast_iff' x y p).1 h
      rwa [Int.emod_eq_of_lt (by omega) (by omega), Int.emod_eq_of_lt (by omega) (by omega)] at this
    · intro x hx
      have hx := (Finset.mem_filter.1 hx).2
      have e : ((x.val : ℤ) : ZMod p) = x := by rw [Int.cast_natCast, ZMod.natCast_zmod_val]
      refine ⟨x.val, ?_, e⟩
      rw [Finset.mem_filter, Finset.mem_Icc]
      have hlt := ZMod.val_lt x
      refine ⟨⟨?_, by omega⟩, (jacobi_neg_one h2 _).2 (by rwa [e])⟩
      by_contra hc
      have : x.val = 0 ∨ x.val = 1 := by omega
      rcases this with h | h
      · rw [← e, h] at hx; simp at hx
      · rw [← e, h] at hx; simp at hx
  omega

/-- C151: each choice of `d` in `sqrts_mod_p` is a quadratic nonresidue with probability `((p - 1)/2)/(p - 2)`, a little more
than 1/2. -/
theorem C151_nonresidue_probability (p : ℕ) (hp : p.Prime) (h2 : p ≠ 2) :
    randintLaw 2 ((p : ℤ) - 1) {d | jacobiSymbol d p = .ok (-1)} = ((p - 1) / 2 : ℕ) / ((p - 2 : ℕ) : ℝ≥0∞) := by
  have := hp.two_le
  rw [randintLaw_set (by omega), card_draws p hp h2, show ((p : ℤ) - 1 + 1 - 2).toNat = p - 2 by omega]

/-- C151: more than `k` choices of `d` are made with probability at most `1 / 2 ^ k`. -/
theorem C151_search_length (p : ℕ) (hp : p.Prime) (h2 : p ≠ 2) (k : ℕ) :
    Measure.infinitePi (fun _ : ℕ => randintLaw 2 ((p : ℤ) - 1)) {ω | ∀ i < k, jacobiSymbol (ω i) p ≠ .ok (-1)} ≤
      (1 / 2) ^ k := by
  refine repeated_le (μ := randintLaw 2 ((p : ℤ) - 1)) (fun d => jacobiSymbol d p ≠ .ok (-1)) ?_ k
  have h1 := C151_nonresidue_probability p hp h2
  have h5 : 3 ≤ p := by have := hp.two_le; omega
  have hodd := hp.eq_two_or_odd.resolve_left h2
  have hN : ((p - 2 : ℕ) : ℝ≥0∞) ≠ 0 := by
    have : p - 2 ≠ 0 := by omega
    exact_mod_cast this
  have h3 : (1 / 2 : ℝ≥0∞) ≤ randintLaw 2 ((p : ℤ) - 1) {d | jacobiSymbol d p = .ok (-1)} := by
    rw [h1, ENNReal.le_div_iff_mul_le (Or.inl hN) (Or.inl (ENNReal.natCast_ne_top _)), mul_comm, mul_one_div]
    refine ENNReal.div_le_of_le_mul ?_
    have : p - 2 ≤ (p - 1) / 2 * 2 := by omega
    exact_mod_cast this
  have h4 : {d : ℤ | jacobiSymbol d p ≠ .ok (-1)} = {d | jacobiSymbol d p = .ok (-1)}ᶜ := rfl
  rw [h4, prob_compl_eq_one_sub MeasurableSet.of_discrete]
  calc 1 - randintLaw 2 ((p : ℤ) - 1) {d | jacobiSymbol d p = .ok (-1)} ≤ 1 - 1 / 2 := tsub_le_tsub_left h3 1
    _ = 1 / 2 := by simp

/-- The `i`-th number drawn in the search modulo `p`, for every prime `p` (zn_arithmetic.py:319-321). -/
noncomputable def drawLaw (pi : ℕ × ℕ) : Measure ℤ := randintLaw 2 ((pi.1 : ℤ) - 1)

instance (pi : ℕ × ℕ) : IsProbabilityMeasure (drawLaw pi) := by unfold drawLaw; infer_instance

/-- C151: with probability one the search for a nonresidue ends for every odd prime. -/
theorem C151_search_ends : ∀ᵐ ω ∂(Measure.infinitePi drawLaw), ∀ p : ℕ, p.Prime → p ≠ 2 →
    ∃ i, ¬ IsSquare ((ω (p, i) : ℤ) : ZMod p) := by
  rw [ae_all_iff]
  intro p
  by_cases h : p.Prime ∧ p ≠ 2
  · obtain ⟨d, h1, h2, h3⟩ := C20_nonresidue_exists p h.1 h.2
    have key := ae_frequently drawLaw (fun j => {(p, j)})
      (by intro i j hij; simpa [Function.onFun] using hij) (fun _ => {d}) (fun _ => MeasurableSet.singleton _)
      (randintLaw 2 ((p : ℤ) - 1) {d}) (randintLaw_singleton_ne h1 (by omega)) (by intro j; simp [drawLaw])
    filter_upwards [key] with ω hω _ _
    obtain ⟨j, -, hj⟩ := hω 0
    have hj : ω (p, j) = d := hj (p, j) (by simp)
    exact ⟨j, by rw [hj]; exact h3⟩
  · exact Filter.Eventually.of_forall fun ω h1 h2 => absurd ⟨h1, h2⟩ h

/-- C151: with probability one `sqrts_mod_p(a, p)` returns, and the result is the increasing list of the roots. -/
theorem C151_sqrts_mod_p (a : ℤ) (p : ℕ) (hp : p.Prime) : ∀ᵐ ω ∂(Measure.infinitePi drawLaw),
    ∃ L, sqrtsModP (fun i => ω (p, i)) a p = some (.ok L) ∧ L.Pairwise (· < ·) ∧
      ∀ x, x ∈ L ↔ 0 ≤ x ∧ x < p ∧ (p : Int) ∣ x ^ 2 - a := by
  filter_upwards [C151_search_ends] with ω hω
  obtain ⟨r, hr⟩ := C20_sqrts_mod_p_total (fun i => ω (p, i)) a p hp (fun h => hω p hp (by rintro rfl; simp at h))
  obtain ⟨L, rfl, h⟩ := C20_sqrts_mod_p _ a p hp r hr
  exact ⟨L, hr, h⟩

/-- C151: with probability one `sqrts_mod_n(a, n)` returns, and the result is the increasing list of the roots. -/
theorem C151_sqrts_mod_n (a : ℤ) (n : ℕ) (hn : 2 ≤ n) (fac : List (ℕ × ℕ)) (hf : FactorsTo fac n) :
    ∀ᵐ ω ∂(Measure.infinitePi drawLaw), ∃ L, sqrtsModN (fun p i => ω (p, i)) a fac = some (.ok L) ∧ L.Pairwise (· < ·) ∧
      ∀ x, x ∈ L ↔ 0 ≤ x ∧ x < n ∧ (n : Int) ∣ x ^ 2 - a := by
  filter_upwards [C151_search_ends] with ω hω
  obtain ⟨r, hr⟩ := C21_sqrts_mod_n_total (fun p i => ω (p, i)) a n fac hf
    (fun pe hpe h => hω pe.1 (hf.primes.prime pe hpe) (by intro h2; rw [h2] at h; simp at h))
  obtain ⟨L, rfl, h⟩ := C21_sqrts_mod_n _ a n hn fac hf r hr
  exact ⟨L, hr, h⟩

/-- C151: with probability one `quadratic_congruence([a, b, c], n)` returns, and the result is the increasing list of the
roots. -/
theorem C151_quadratic_congruence (a b c : ℤ) (ha : a ≠ 0) (n : ℕ) (hn : 2 ≤ n) (fac : List (ℕ × ℕ)) (hf : FactorsTo fac n)
    (factorOf : ℕ → List (ℕ × ℕ)) (hfo : ∀ m, 2 ≤ m → FactorsTo (factorOf m) m) :
    ∀ᵐ ω ∂(Measure.infinitePi drawLaw), ∃ L, quadraticCongruence (fun p i => ω (p, i)) a b c n fac factorOf = some (.ok L) ∧
      L.Pairwise (· < ·) ∧ ∀ x, x ∈ L ↔ 0 ≤ x ∧ x < n ∧ (n : Int) ∣ a * x ^ 2 + b * x + c := by
  filter_upwards [C151_search_ends] with ω hω
  obtain ⟨r, hr⟩ := C22_quadratic_congruence_total (fun p i => ω (p, i)) a b c ha n hn fac hf factorOf hfo
    (fun p hp h => hω p hp (by rintro rfl; simp at h))
  obtain ⟨L, rfl, h⟩ := C22_quadratic_congruence _ a b c n hn fac hf factorOf hfo r hr
  exact ⟨L, hr, h⟩

/-- C151: with probability one `fibonacci_primitive_roots(p)` returns, and the result is the increasing list of the primitive
roots that satisfy the equation. -/
theorem C151_fibonacci_primitive_roots (p : ℕ) (hp : p.Prime) (phiFac : List (ℕ × ℕ)) (hf : FactorsTo phiFac (p - 1)) :
    ∀ᵐ ω ∂(Measure.infinitePi drawLaw), ∃ L, fibonacciPrimitiveRoots (fun i => ω (p, i)) p phiFac = some (.ok L) ∧
      L.Pairwise (· < ·) ∧ ∀ x : Int, x ∈ L ↔ 0 ≤ x ∧ x < p ∧ GeneratesUnits x p ∧ (p : Int) ∣ x ^ 2 - (x + 1) := by
  filter_upwards [C151_search_ends] with ω hω
  obtain ⟨r, hr⟩ := C79_total (fun i => ω (p, i)) p hp phiFac (fun h => hω p hp (by rintro rfl; simp at h))
  obtain ⟨L, rfl, h⟩ := C79_fibonacci_primitive_roots _ p hp phiFac hf r hr
  exact ⟨L, hr, h⟩

/-- C151: the same for the functions called with numbers alone, for numbers that trial division by the table splits up to one
prime factor; `fct` is never used then. -/
theorem C151_calls (fct : ℕ → ℕ → Option ℕ) (a b c : ℤ) (n : ℕ) (hn : 2 ≤ n) :
    (OneLarge 999983 n → ∀ᵐ ω ∂(Measure.infinitePi drawLaw),
      ∃ L, sqrtsModNCall primeList fct (fun p i => ω (p, i)) a n = some (.ok L) ∧ L.Pairwise (· < ·) ∧
        ∀ x, x ∈ L ↔ 0 ≤ x ∧ x < n ∧ (n : Int) ∣ x ^ 2 - a) ∧
    (a ≠ 0 → OneLarge 999983 (4 * a.natAbs * n) → ∀ᵐ ω ∂(Measure.infinitePi drawLaw),
      ∃ L, quadraticCongruenceCall primeList fct (fun p i => ω (p, i)) a b c n = some (.ok L) ∧ L.Pairwise (· < ·) ∧
        ∀ x, x ∈ L ↔ 0 ≤ x ∧ x < n ∧ (n : Int) ∣ a * x ^ 2 + b * x + c) := by
  constructor
  · intro hlt
    obtain ⟨fac, h1, -, h3⟩ := withFactor_real (α := List Int) fct n (by omega) hlt
    unfold sqrtsModNCall
    simp only [h3]
    exact C151_sqrts_mod_n a n hn fac h1
  · intro ha hlt
    filter_upwards [C151_search_ends] with ω hω
    obtain ⟨h1, h2⟩ := C146_quadratic_congruence_partial fct (fun p i => ω (p, i)) a b c n hn ha hlt
    obtain ⟨r, hr⟩ := h2 (fun p hp h => hω p hp (by rintro rfl; simp at h))
    obtain ⟨L, rfl, h⟩ := h1 r hr
    exact ⟨L, hr, h⟩

/-- C151: with probability one the generator of solutions of the generalised Pell equation finds them all. -/
theorem C151_pell {rnd : ℝ → ℝ} (h : Floats.IsRounding rnd) (fac : List (ℕ × ℕ)) (D N B : ℤ) (hd : 0 < D)
    (hns : ∀ k : ℤ, k ^ 2 ≠ D) (hD : D < 4503599761588224) (hf : FactorsTo fac D.toNat)
    (hb : ∀ u v : ℤ, ContinuedFractions.pellFundamentalSolution D = some (.ok (u, v)) → (u + 1) * |N| ≤ 2 ^ 48)
    (hN : N ≠ 0) (hnsq : N = 1 ∨ ∀ k : ℤ, k ^ 2 ≠ N) :
    ∀ᵐ ω ∂(Measure.infinitePi drawLaw),
      ∃ out, Pell.solutionGenerator (fun p i => ω (p, i)) fac (Floats.pellBound rnd) D N B = some (.ok out) ∧ out.Nodup ∧
        ∀ x y : ℤ, (x, y) ∈ out ↔ 0 ≤ x ∧ x ≤ B ∧ 0 < y ∧ y ≤ B ∧ x ^ 2 - D * y ^ 2 = N := by
  filter_upwards [C151_search_ends] with ω hω
  exact C141_pell h (fun p i => ω (p, i)) fac D N B hd hns hD hf
    (fun pe hpe h => hω pe.1 (hf.primes.prime pe hpe) (by intro h2; rw [h2] at h; simp at h)) hb hN hnsq

/-- C151 (violation of termination for all random choices): for `p ≡ 1 (mod 8)` and a nonzero square `a`, drawing 4 for
ever, `sqrts_mod_p(a, p)` does not return. -/
theorem C151_endless_violation (a : ℤ) (p : ℕ) (hp : p.Prime) (h8 : p % 8 = 1) (ha0 : (a : ZMod p) ≠ 0)
    (ha : IsSquare (a : ZMod p)) :
    ((2 : ℤ) ≤ 4 ∧ (4 : ℤ) ≤ p - 1) ∧ sqrtsModP (fun _ => 4) a p = none := by
  haveI : Fact p.Prime := ⟨hp⟩
  have hp2 : p ≠ 2 := by rintro rfl; simp at h8
  have h9 : 9 ≤ p := by have := hp.two_le; omega
  refine ⟨⟨by norm_num, by omega⟩, ?_⟩
  have h4 : jacobiSymbol 4 p ≠ .ok (-1) := by
    rw [Ne, jacobi_neg_one hp2]
    exact not_not.2 ⟨2, by push_cast; norm_num⟩
  have hnone : findNonresidue (fun _ => 4) p 0 = none := by
    by_contra hc
    obtain ⟨d, hd⟩ := Option.ne_none_iff_exists'.1 hc
    exact findNonresidue.partial_correctness (fun _ => 4) p (fun _ _ => False) (by
      intro f ih i r h
      rw [if_neg h4] at h
      exact ih _ _ h) 0 d hd
  have hcast : ((a.fmod p : ℤ) : ZMod p) = a := by
    rw [Int.fmod_eq_emod_of_nonneg _ (by omega)]
    exact (ZMod.intCast_eq_intCast_iff _ _ _).2 (Int.mod_modEq a p)
  have hne : a.fmod p ≠ 0 := by
    intro h
    rw [h] at hcast
    exact ha0 (by rw [← hcast]; simp)
  unfold sqrtsModP
  rw [if_neg (by omega), if_neg hp2]
  dsimp only
  rw [if_neg hne, C12_jacobi_symbol_prime _ p hp2, hcast, if_neg ha0, if_pos ha]
  dsimp only
  rw [if_neg (by norm_num), if_neg (by omega), if_neg (by omega), hnone]

/-- The root of 2 modulo 17 is found with a lucky number, and never with 4. -/
example : sqrtsModP (fun i => if i = 0 then 4 else 3) 2 17 = some (.ok [6, 11]) ∧ sqrtsModP (fun _ => 4) 2 17 = none := by
  refine ⟨?_, (C151_endless_violation 2 17 (by norm_num) rfl (by decide) ⟨6, by decide⟩).2⟩
  have h : findNonresidue (fun i => if i = 0 then 4 else 3) 17 0 = some 3 := by
    rw [findNonresidue, if_neg (by decide +kernel), findNonresidue, if_pos (by decide +kernel)]
    rfl
  unfold sqrtsModP
  rw [h]
  decide +kernel

end Rosemary.Props
