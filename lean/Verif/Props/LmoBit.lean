import Verif.Model.LmoBit
import Verif.Props.MeisselLehmer
import Verif.Props.BitSieve

/-!
# C119: `lmo_bit`
-/

namespace Rosemary.PrimeCounting

open Rosemary.Core Rosemary.Sieves Rosemary.BitSieve Rosemary.Spec Finset

/-- The flags after marking the multiples of the first `a` primes. -/
noncomputable def unmarked (a : Nat) : Nat → Bool := fun k => decide (∀ j < a, ¬ P j ∣ k)

theorem cnt_unmarked (a v : Nat) : cnt (unmarked a) 0 v = phiN v a := by
  unfold cnt phiN
  rw [card_filter]
  push_cast
  apply sum_congr
  · ext k; simp only [mem_Ioc, mem_Icc]; omega
  · intro k _
    simp [unmarked]

theorem lmoBitLeaves_spec {root a : Nat} {s : SieveArray} (hA : AInv (unmarked a) root s.A)
    (l : List (Nat × Int)) (value : Int) (hl : ∀ e ∈ l, e.1 ≤ root ∧ (e.2 = 1 ∨ e.2 = -1)) :
    lmoBitLeaves s l value = .ok (value + leafSum a l) := by
  induction l generalizing value with
  | nil => simp [lmoBitLeaves, leafSum]
  | cons e l ih =>
    obtain ⟨v, sg⟩ := e
    obtain ⟨h1, h2⟩ := hl (v, sg) (by simp)
    dsimp only at h1 h2
    have hp : partialSumArray s v = .ok (phiN v a) := by
      unfold partialSumArray
      rw [sumArrayLoop_spec hA v 0 0 (by simpa using h1)]
      simp only [pow_zero, mul_one, zero_add, cnt_unmarked]
    unfold lmoBitLeaves
    rw [hp]
    dsimp only
    have hih := fun val => ih val (fun e he => hl e (by simp [he]))
    have hsum : leafSum a ((v, sg) :: l) = sg * phiN v a + leafSum a l := by simp [leafSum]
    rw [hih, hih, hsum]
    rcases h2 with rfl | rfl
    · rw [if_pos (by norm_num)]; congr 1; ring
    · rw [if_neg (by norm_num)]; congr 1; ring

theorem mark_unmarked {root a : Nat} {s : SieveArray} (hn : s.n = root) (hA : AInv (unmarked a) root s.A) :
    ∃ s', markMultiplesArray s (P a) = .ok s' ∧ s'.n = root ∧ AInv (unmarked (a + 1)) root s'.A := by
  have hp : 1 ≤ P a := (P_prime a).one_lt.le
  subst hn
  obtain ⟨A', h1, h2⟩ := markArrayLoop_spec (n := s.n) (multiples (P a) s.n)
    (fun i hi => ⟨((mem_multiples hp).1 hi).1, ((mem_multiples hp).1 hi).2.1⟩) _ s.A hA
  refine ⟨{ s with A := A' }, ?_, rfl, h2.congr ?_⟩
  · unfold markMultiplesArray
    rw [if_neg (by omega), h1]
  · intro k hk1 hk2
    have hm := mem_multiples (n := s.n) (k := k) hp
    unfold unmarked
    by_cases hd : P a ∣ k
    · have h3 : k ∈ multiples (P a) s.n := hm.2 ⟨hk1, hk2, hd⟩
      have h4 : ¬ ∀ j < a + 1, ¬ P j ∣ k := fun h => h a (by omega) hd
      rw [decide_eq_false h4]
      simp [h3]
    · have h3 : k ∉ multiples (P a) s.n := fun h => hd (hm.1 h).2.2
      simp only [h3, not_false_eq_true, decide_true, Bool.and_true, decide_eq_decide]
      constructor
      · intro h j hj
        rcases Nat.lt_or_ge j a with h5 | h5
        · exact h j h5
        · rw [show j = a by omega]; exact hd
      · intro h j hj
        exact h j (by omega)

theorem lmoBitSieve_spec {root c : Nat} {sp : Special} (hsp : SpecialOk root c sp)
    (hc : c ≤ Nat.primeCounting root) (k i : Nat) (hi : 1 ≤ i)
    (hk : ∀ a ∈ List.range' i k, a ∈ Dict.keys sp) (s : SieveArray) (hn : s.n = root)
    (hA : AInv (unmarked (i - 1)) root s.A) (value : Int) :
    lmoBitSieve (primesUpTo root) sp (List.range' i k) s value =
      .ok (value + ((List.range' i k).map (fun a => leafSum a ((Dict.get? sp a).getD []))).sum) := by
  induction k generalizing i value s with
  | zero => simp [lmoBitSieve]
  | succ k ih =>
    rw [List.range'_succ] at hk ⊢
    obtain ⟨l, hl⟩ := Dict.get?_isSome.2 (hk i (by simp))
    obtain ⟨h1, h2, h3⟩ := hsp.ok i l hl
    obtain ⟨s', e1, e2, e3⟩ := mark_unmarked hn hA
    rw [Nat.sub_add_cancel hi] at e3
    unfold lmoBitSieve
    rw [primesUpTo_get (by omega)]
    dsimp only
    rw [e1]
    dsimp only
    rw [hl]
    dsimp only
    rw [lmoBitLeaves_spec e3 _ value (fun e he => h3 e (mem_pySort.1 he))]
    dsimp only
    rw [ih (i + 1) (by omega) (fun a ha => hk a (by simp [ha])) s' e2 (by simpa using e3),
      leafSum_perm (pySort_perm l leLeaf), List.map_cons, List.sum_cons, hl, Option.getD_some, add_assoc]

end Rosemary.PrimeCounting

namespace Rosemary.Props

open Rosemary.Core Rosemary.Sieves Rosemary.BitSieve Rosemary.Spec Rosemary.Primality
  Rosemary.PrimeCounting Finset

/-- C119: `lmo_bit(x)` is the number of primes up to `x` for every `x >= 8` at which the three float
roots have the exact integer parts: `root = floor(x^(2/3))`, `t = floor(x^(1/3))`, `r = floor(sqrt x)`.
What is missing: the arguments below 8 and those at which a float root is inexact. -/
theorem C119_lmo_bit_partial (T : List Nat) (hT : IsPrimeTable T) (root t r x : Nat) (hx : 8 ≤ x)
    (hroot : root ^ 3 ≤ x ^ 2 ∧ x ^ 2 < (root + 1) ^ 3) (ht : t ^ 3 ≤ x ∧ x < (t + 1) ^ 3)
    (hr : r ^ 2 ≤ x ∧ x < (r + 1) ^ 2) :
    lmoBit T root t r x = .ok (Nat.primeCounting x : Int) := by
  have hR : Roots x root t r := by
    refine ⟨hx, by nlinarith [hroot.2], by nlinarith [ht.1], by nlinarith [ht.2], ?_,
      by nlinarith [hr.2]⟩
    calc r * (r - 1) ≤ r * r := Nat.mul_le_mul_left _ (Nat.sub_le _ _)
      _ ≤ x := by nlinarith [hr.1]
  unfold lmoBit
  rw [C18_primes T hT, Int.toNat_natCast]
  dsimp only
  rw [bisect_primesUpTo hR.t_le_root, bisect_primesUpTo hR.r_le_root]
  have hcr := pi_mono hR.t_le_r
  have hrr := pi_mono hR.r_le_root
  have htr := pi_mono hR.t_le_root
  have hf := hR.formula
  have hc1 := hR.pi_t_pos
  obtain ⟨c, hc⟩ : ∃ c, c = Nat.primeCounting t := ⟨_, rfl⟩
  obtain ⟨b, hb⟩ : ∃ b, b = Nat.primeCounting r := ⟨_, rfl⟩
  rw [← hc, ← hb] at hcr hf ⊢
  rw [← hb] at hrr
  rw [← hc] at htr hc1
  rw [show pyRange c b = List.range' c (b - c) from rfl, lmoSum_spec (by omega)
    (fun j hj => hR.div_le_root (pi_le_iff.1 (hc ▸ hj)))]
  dsimp only
  obtain ⟨v, sp, hst, hsum, hok, hkeys⟩ := lmoStack_spec hR hc (2 ^ (c + 1)) [(1, c, 1)]
    ((((b : Int) + c - 2) * (b - c + 1)).fdiv 2 -
      ∑ j ∈ Ico c (c + (b - c)), (Nat.primeCounting (x / P j) : Int)) []
    (by simp [stackCost])
    (by
      intro e he
      rw [List.mem_singleton] at he
      subst he
      have := hR.t_two
      exact ⟨hc1, le_refl _, le_refl _, Or.inl rfl, fun _ => rfl, fun h => by dsimp only at h; omega⟩)
    ⟨List.nodup_nil, fun a l h => by simp [Dict.get?] at h⟩
  rw [hst]
  dsimp only
  have hsort : pySort (Dict.keys sp) (· ≤ ·) = List.range' 1 (c - 2) := by
    refine sorted_ext (pySort_nat_lt _ hok.wf) (List.pairwise_lt_range') ?_
    intro k
    rw [mem_pySort, List.mem_range'_1]
    constructor
    · intro hk
      obtain ⟨l, hl⟩ := Dict.get?_isSome.2 hk
      have := hok.ok k l hl
      omega
    · rintro ⟨hk1, hk2⟩
      exact hkeys k hk1 (by omega) (Or.inr ⟨(1, c, 1), by simp, Or.inl ⟨rfl, rfl⟩⟩)
  obtain ⟨s, hs1, hs2, hs3⟩ := initArray_spec root
  rw [hs1]
  dsimp only
  rw [hsort]
  have hsv := lmoBitSieve_spec hok htr (c - 2) 1 (le_refl _)
    (fun a ha => mem_pySort.1 (hsort ▸ ha)) s hs2 (hs3.congr (by intro k _ _; simp [unmarked])) v
  rw [hsv, specialSum_eq hok (hsort ▸ pySort_perm _ _), hsum]
  congr 1
  have e5 : stackSum x [(1, c, 1)] = phiN x c := by simp [stackSum]
  have e6 : specialSum [] = 0 := rfl
  rw [e5, e6, hf, show c + (b - c) = b by omega, Finset.sum_sub_distrib, sum_Ico_id c b hcr]
  have e7 : ((b : Int) + c - 2) * (b - c + 1) = ((b : Int) - c) * (b + c - 1) + (c - 1) * 2 := by ring
  rw [e7, Int.fdiv_eq_ediv_of_nonneg _ (by norm_num), Int.fdiv_eq_ediv_of_nonneg _ (by norm_num),
    Int.add_mul_ediv_right _ _ (by norm_num)]
  ring

example : lmoBit [2, 3, 5, 7] 100 10 31 1000 = .ok 168 ∧ lmoBit [2, 3, 5, 7] 9 3 5 30 = .ok 10 := by
  decide +kernel

/-- C119 is false for the cube of a prime: the exponent `0.33333333333333` is below one third, hence
`t < p` at `x = p^3`, and `x` itself, a product of three primes above `t`, is counted.  For `x = 27` the
integer part of `t` is 2, that of the square root is 5, and `root` is 8 or 9 depending on the rounding:
the result is 10, but there are 9 primes up to 27. -/
theorem C119_lmo_bit_violation :
    lmoBit [2, 3, 5, 7] 9 2 5 27 = .ok 10 ∧ lmoBit [2, 3, 5, 7] 8 2 5 27 = .ok 10 ∧
    Nat.primeCounting 27 = 9 := by decide +kernel

end Rosemary.Props
