import Verif.Lemmas.Legendre
import Verif.Model.MeisselLehmer
import Mathlib.NumberTheory.PrimeCounting
import Mathlib.Tactic.NormNum.Prime

/-!
# Counting the integers free of the first primes

`phiN x a` counts the `1 ≤ m ≤ x` divisible by none of the first `a` primes; the formulas of Legendre,
Meissel and Lehmer for it.
-/

namespace Rosemary.PrimeCounting

open Rosemary.Sieves Rosemary.Spec Finset

/-- The `i`-th prime, from 0. -/
noncomputable abbrev P (i : Nat) : Nat := Nat.nth Nat.Prime i

theorem P_prime (i : Nat) : (P i).Prime := Nat.prime_nth_prime i

theorem P_lt {i j : Nat} : P i < P j ↔ i < j := Nat.nth_lt_nth Nat.infinite_setOf_prime

theorem P_le {i j : Nat} : P i ≤ P j ↔ i ≤ j := Nat.nth_le_nth Nat.infinite_setOf_prime

theorem lt_pi_iff {i y : Nat} : i < Nat.primeCounting y ↔ P i ≤ y := by
  unfold Nat.primeCounting Nat.primeCounting'
  rw [Nat.lt_nth_iff_count_lt Nat.infinite_setOf_prime]
  exact Nat.lt_succ_iff

theorem pi_le_iff {i y : Nat} : Nat.primeCounting y ≤ i ↔ y < P i := by
  rw [← not_lt, lt_pi_iff, not_le]

theorem exists_P {p : Nat} (hp : p.Prime) : ∃ i, P i = p := by
  exact ⟨_, Nat.nth_count hp⟩

theorem P_injective : Function.Injective P := Nat.nth_injective Nat.infinite_setOf_prime

theorem P_eq {p i : Nat} (hp : p.Prime) (h : Nat.count Nat.Prime p = i) : P i = p := by
  rw [← h]; exact Nat.nth_count hp

theorem P_zero : P 0 = 2 := P_eq Nat.prime_two (by decide)
theorem P_one : P 1 = 3 := P_eq Nat.prime_three (by decide)
theorem P_two : P 2 = 5 := P_eq (by norm_num) (by decide)
theorem P_three : P 3 = 7 := P_eq (by norm_num) (by decide)
theorem P_four : P 4 = 11 := P_eq (by norm_num) (by decide)
theorem P_five : P 5 = 13 := P_eq (by norm_num) (by decide)
theorem P_six : P 6 = 17 := P_eq (by norm_num) (by decide)
theorem P_seven : P 7 = 19 := P_eq (by norm_num) (by decide)

theorem range_map_P_sorted (k : Nat) : ((List.range k).map P).Pairwise (· < ·) := by
  rw [List.pairwise_map]
  exact List.pairwise_lt_range.imp (fun h => P_lt.2 h)

theorem primesUpTo_eq (R : Nat) : primesUpTo R = (List.range (Nat.primeCounting R)).map P := by
  refine sorted_ext (primesUpTo_sorted R) (range_map_P_sorted _) ?_
  intro p
  rw [mem_primesUpTo, List.mem_map]
  constructor
  · rintro ⟨hp, hR⟩
    obtain ⟨i, rfl⟩ := exists_P hp
    exact ⟨i, List.mem_range.2 (lt_pi_iff.2 hR), rfl⟩
  · rintro ⟨i, hi, rfl⟩
    exact ⟨P_prime i, lt_pi_iff.1 (List.mem_range.1 hi)⟩

theorem primesUpTo_get {R i : Nat} (h : i < Nat.primeCounting R) : (primesUpTo R)[i]? = some (P i) := by
  rw [primesUpTo_eq]; simp [h]

/-- The number of `1 ≤ m ≤ x` divisible by none of the first `a` primes. -/
noncomputable def phiN (x a : Nat) : Int := (((Icc 1 x).filter (fun m => ∀ j < a, ¬ P j ∣ m)).card : Nat)

theorem phiN_eq {a b x : Nat} (h : a ≤ b) :
    phiN x a = legendreSum (fun _ => 1) ((List.range b).map P) x a := by
  unfold phiN legendreSum
  rw [Finset.sum_const, nsmul_eq_mul, mul_one]
  congr 2
  ext m
  simp only [mem_filter, mem_Icc]
  refine and_congr_right (fun _ => ?_)
  rw [← List.map_take, List.take_range, Nat.min_eq_left h]
  simp

theorem phiN_zero (x : Nat) : phiN x 0 = x := by simp [phiN]

theorem phiN_step (x a : Nat) : phiN x (a + 1) = phiN x a - phiN (x / P a) a := by
  rw [phiN_eq (le_refl (a + 1)), phiN_eq (Nat.le_succ a), phiN_eq (Nat.le_succ a)]
  have := legendreSum_step (f := fun _ => 1) (ps := (List.range (a + 1)).map P) (x := x) (a := a) (p := P a)
    ⟨by
      intro p hp
      obtain ⟨i, -, rfl⟩ := List.mem_map.1 hp
      exact P_prime i, range_map_P_sorted _⟩ (by simp) (fun _ => rfl)
  rw [this, one_mul]

theorem phiN_telescope (x a b : Nat) (h : a ≤ b) :
    phiN x a = phiN x b + ∑ i ∈ Ico a b, phiN (x / P i) i := by
  induction b, h using Nat.le_induction with
  | base => simp
  | succ b hb ih =>
    rw [Finset.sum_Ico_succ_top hb, ih, phiN_step]
    ring

theorem phiN_nonneg (x a : Nat) : 0 ≤ phiN x a := Int.natCast_nonneg _

theorem phiN_pos {x : Nat} (hx : 1 ≤ x) (a : Nat) : 1 ≤ phiN x a := by
  unfold phiN
  have : 0 < ((Icc 1 x).filter (fun m => ∀ j < a, ¬ P j ∣ m)).card := by
    apply Finset.card_pos.2
    refine ⟨1, ?_⟩
    simp only [mem_filter, mem_Icc]
    exact ⟨⟨le_refl _, hx⟩, fun j _ hd => (P_prime j).one_lt.ne' (Nat.dvd_one.1 hd)⟩
  omega

/-- One and the primes from `P a` to `x`. -/
noncomputable def oneAndPrimes (x a : Nat) : Finset Nat := insert 1 ((Ico a (Nat.primeCounting x)).image P)

theorem card_oneAndPrimes (x a : Nat) : (oneAndPrimes x a).card = 1 + (Nat.primeCounting x - a) := by
  unfold oneAndPrimes
  rw [card_insert_of_notMem, card_image_of_injective _ P_injective, Nat.card_Ico, add_comm]
  intro h
  obtain ⟨i, -, hi⟩ := mem_image.1 h
  have := (P_prime i).one_lt
  omega

theorem oneAndPrimes_subset {x : Nat} (hx : 1 ≤ x) (a : Nat) :
    oneAndPrimes x a ⊆ (Icc 1 x).filter (fun m => ∀ j < a, ¬ P j ∣ m) := by
  intro m hm
  simp only [mem_filter, mem_Icc]
  rcases mem_insert.1 hm with rfl | hm
  · exact ⟨⟨le_refl _, hx⟩, fun j _ hd => (P_prime j).one_lt.ne' (Nat.dvd_one.1 hd)⟩
  · obtain ⟨i, hi, rfl⟩ := mem_image.1 hm
    rw [mem_Ico] at hi
    refine ⟨⟨(P_prime i).pos, lt_pi_iff.1 hi.2⟩, fun j hj hd => ?_⟩
    have := P_injective ((Nat.prime_dvd_prime_iff_eq (P_prime j) (P_prime i)).1 hd)
    omega

theorem phiN_ge {x : Nat} (hx : 1 ≤ x) (a : Nat) : (Nat.primeCounting x : Int) - a + 1 ≤ phiN x a := by
  have h := card_le_card (oneAndPrimes_subset hx a)
  rw [card_oneAndPrimes] at h
  unfold phiN
  omega

/-- Legendre. -/
theorem phiN_legendre {x a : Nat} (hx : 1 ≤ x) (h1 : x < P a * P a) (h2 : a ≤ Nat.primeCounting x) :
    phiN x a = Nat.primeCounting x - a + 1 := by
  have e : (Icc 1 x).filter (fun m => ∀ j < a, ¬ P j ∣ m) = oneAndPrimes x a := by
    refine Subset.antisymm ?_ (oneAndPrimes_subset hx a)
    intro m hm
    simp only [mem_filter, mem_Icc] at hm
    obtain ⟨⟨hm1, hm2⟩, hm3⟩ := hm
    by_cases h0 : m = 1
    · exact mem_insert.2 (Or.inl h0)
    · have hp := Nat.minFac_prime h0
      obtain ⟨i, hi⟩ := exists_P hp
      have hia : a ≤ i := by
        by_contra hc
        exact hm3 i (by omega) (hi ▸ Nat.minFac_dvd m)
      have hP := P_le.2 hia
      have hmp : m.Prime := by
        by_contra hc
        have h7 := Nat.minFac_sq_le_self (by omega) hc
        rw [← hi, pow_two] at h7
        have := Nat.mul_le_mul hP hP
        omega
      have hmi : P i = m := by
        rw [hi]; exact hmp.minFac_eq
      refine mem_insert_of_mem (mem_image.2 ⟨i, mem_Ico.2 ⟨hia, lt_pi_iff.2 (by omega)⟩, hmi⟩)
  unfold phiN
  rw [e, card_oneAndPrimes]
  omega

/-- Meissel. -/
theorem phiN_meissel {x a b : Nat} (hx : 1 ≤ x) (hab : a ≤ b) (h3 : x < P a * P a * P a)
    (h2 : x < P b * P b) (hb : b ≤ Nat.primeCounting x) (hi : ∀ i, a ≤ i → i < b → P i * (P i - 1) ≤ x) :
    phiN x a = Nat.primeCounting x - a + 1 + ∑ i ∈ Ico a b, ((Nat.primeCounting (x / P i) : Int) - i) := by
  rw [phiN_telescope x a b hab, phiN_legendre hx h2 hb]
  have e : ∀ i ∈ Ico a b, phiN (x / P i) i = ((Nat.primeCounting (x / P i) : Int) - i) + 1 := by
    intro i hib
    rw [mem_Ico] at hib
    have hp := P_prime i
    have hle := P_le.2 hib.1
    have h4 := hi i hib.1 hib.2
    have h5 : P i - 1 ≤ x / P i := by
      rw [Nat.le_div_iff_mul_le hp.pos, mul_comm]; exact h4
    have := hp.two_le
    apply phiN_legendre (by omega)
    · rw [Nat.div_lt_iff_lt_mul hp.pos]
      exact lt_of_lt_of_le h3 (Nat.mul_le_mul (Nat.mul_le_mul hle hle) hle)
    · rcases Nat.eq_zero_or_pos i with h0 | h0
      · omega
      · have : P (i - 1) < P i := P_lt.2 (by omega)
        have := lt_pi_iff.2 (show P (i - 1) ≤ x / P i by omega)
        omega
  rw [Finset.sum_congr rfl e, Finset.sum_add_distrib]
  simp
  rw [Nat.cast_sub hab]
  ring

theorem two_mul_sum_Ico (a b : Nat) (h : a ≤ b) :
    2 * ∑ i ∈ Ico a b, (i : Int) = ((b : Int) - a) * (b + a - 1) := by
  induction b, h using Nat.le_induction with
  | base => simp
  | succ b hb ih =>
    rw [Finset.sum_Ico_succ_top hb, mul_add, ih]; push_cast; ring

theorem sum_Ico_id (a b : Nat) (h : a ≤ b) :
    ∑ i ∈ Ico a b, (i : Int) = (((b : Int) - a) * (b + a - 1)).fdiv 2 := by
  rw [← two_mul_sum_Ico a b h, Int.fdiv_eq_ediv_of_nonneg _ (by norm_num)]
  omega

theorem phiSmall_eq (x a : Nat) (h1 : 1 ≤ a) (h7 : a ≤ 7) : phiSmall x a = phiN x a := by
  have e1 : ∀ x, phiN x 1 = (x : Int) - (x / 2 : Nat) := by
    intro x
    rw [phiN_step x 0, phiN_zero, phiN_zero, P_zero]
  have e2 : ∀ x, phiN x 2 = phiN x 1 - phiN (x / 3) 1 := by intro x; rw [phiN_step x 1, P_one]
  have e3 : ∀ x, phiN x 3 = phiN x 2 - phiN (x / 5) 2 := by intro x; rw [phiN_step x 2, P_two]
  have e4 : ∀ x, phiN x 4 = phiN x 3 - phiN (x / 7) 3 := by intro x; rw [phiN_step x 3, P_three]
  have e5 : ∀ x, phiN x 5 = phiN x 4 - phiN (x / 11) 4 := by intro x; rw [phiN_step x 4, P_four]
  have e6 : ∀ x, phiN x 6 = phiN x 5 - phiN (x / 13) 5 := by intro x; rw [phiN_step x 5, P_five]
  have e7 : ∀ x, phiN x 7 = phiN x 6 - phiN (x / 17) 6 := by intro x; rw [phiN_step x 6, P_six]
  have s1 : ∀ x, phiSmall x 1 = phiN x 1 := by
    intro x; rw [e1]; simp [phiSmall]
  have s2 : ∀ x, phiSmall x 2 = phiN x 2 := by
    intro x; rw [e2, ← s1, ← s1]
    simp [phiSmall, Nat.div_div_eq_div_mul]; ring
  have s3 : ∀ x, phiSmall x 3 = phiN x 3 := by
    intro x; rw [e3, ← s2, ← s2]
    simp [phiSmall, Nat.div_div_eq_div_mul]; ring
  have s4 : ∀ x, phiSmall x 4 = phiN x 4 := by
    intro x; rw [e4, ← s3, ← s3]
    simp [phiSmall, Nat.div_div_eq_div_mul]; ring
  have s5 : ∀ x, phiSmall x 5 = phiN x 5 := by
    intro x; rw [e5, ← s4, ← s4]
    simp [phiSmall, Nat.div_div_eq_div_mul]; ring
  have s6 : ∀ x, phiSmall x 6 = phiN x 6 := by
    intro x; rw [e6, ← s5, ← s5]
    simp [phiSmall, Nat.div_div_eq_div_mul]; ring
  have s7 : ∀ x, phiSmall x 7 = phiN x 7 := by
    intro x; rw [e7, ← s6, ← s6]
    simp [phiSmall, Nat.div_div_eq_div_mul]; ring
  have : a = 1 ∨ a = 2 ∨ a = 3 ∨ a = 4 ∨ a = 5 ∨ a = 6 ∨ a = 7 := by omega
  rcases this with rfl | rfl | rfl | rfl | rfl | rfl | rfl
  exacts [s1 x, s2 x, s3 x, s4 x, s5 x, s6 x, s7 x]

end Rosemary.PrimeCounting
