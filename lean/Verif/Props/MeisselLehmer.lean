import Verif.Props.PrimeCounting
import Verif.Lemmas.Lmo

/-!
# C103: the prime counting functions `meissel` and `lmo`

Both return the number of primes up to `n` for every integer `n`; for `meissel` the two floating point roots
have to be exact up to `n`.  The possible error of `integer_sqrt` (C09) does no harm.
-/

namespace Rosemary.Props

open Rosemary.Core Rosemary.Sieves Rosemary.Spec Rosemary.Primality Rosemary.PrimeCounting Finset

/-- Up to the last entry of the table the answer is looked up. -/
theorem lookup_small (T : List Nat) (hT : IsPrimeTable T) {l : Nat} (hl : T.getLast? = some l)
    (n : Int) (h : n ≤ l) : (bisectRight T n : Nat) = Nat.primeCounting n.toNat := by
  obtain ⟨l', hl', h2, h3⟩ := hT.last
  rw [hl] at hl'
  injection hl' with hl'
  subst hl'
  have e : T.takeWhile (fun q : Nat => decide ((q : Int) ≤ n)) = primesUpTo n.toNat := by
    refine sorted_ext (hT.sorted.sublist (List.takeWhile_sublist _)) (primesUpTo_sorted _) ?_
    intro p
    rw [takeWhile_sorted hT.sorted, mem_primesUpTo, h3]
    constructor
    · rintro ⟨⟨h4, -⟩, h5⟩; exact ⟨h4, by omega⟩
    · rintro ⟨h4, h5⟩
      have := h4.two_le
      exact ⟨⟨h4, by omega⟩, by omega⟩
  unfold bisectRight
  rw [e, primesUpTo_length]

/-- The roots computed at the start. -/
private theorem roots_exist (N : Nat) (hN : 8 ≤ N) : ∃ root t r : Nat,
    integerNthRoot 3 ((N : Int) ^ 2) = .ok root ∧ integerNthRoot 3 (N : Int) = .ok t ∧
      integerNthRoot 2 (N : Int) = .ok r ∧ Roots N root t r := by
  obtain ⟨root, h1, h2, h3⟩ := C08_integer_nth_root_partial 3 ((N : Int) ^ 2) (by norm_num) (by positivity)
    (by norm_num)
  obtain ⟨t, h4, h5, h6⟩ := C08_integer_nth_root_partial 3 (N : Int) (by norm_num) (by positivity)
    (by norm_num)
  obtain ⟨r, h7, h8, h9⟩ := integerSqrt_slack N
  refine ⟨root, t, r, h1, h4, by rw [C08_integer_nth_root_two, h7], hN, ?_, ?_, ?_, h9, h8⟩
  · have : (N : Int) * N < ((root + 1) * (root + 1) * (root + 1) : Int) := by
      have h3 : (N : Int) ^ 2 < ((root : Int) + 1) ^ 3 := h3
      calc (N : Int) * N = (N : Int) ^ 2 := by ring
        _ < _ := h3
        _ = _ := by ring
    exact_mod_cast this
  · have : ((t * t * t : Nat) : Int) ≤ N := by
      have h5 : (t : Int) ^ 3 ≤ N := h5
      push_cast
      calc (t : Int) * t * t = (t : Int) ^ 3 := by ring
        _ ≤ _ := h5
    exact_mod_cast this
  · have : (N : Int) < ((t + 1) * (t + 1) * (t + 1) : Int) := by
      have h6 : (N : Int) < ((t : Int) + 1) ^ 3 := h6
      calc (N : Int) < _ := h6
        _ = _ := by ring
    exact_mod_cast this

/-- C103: `meissel(n)` is the number of primes up to `n`, for every integer `n` up to which the floating
point square and cube roots of the code are exact. -/
theorem C103_meissel (T : List Nat) (hT : IsPrimeTable T) (fsqrt fcbrt : Nat → Nat) (n : Int)
    (hs : FloorSqrt fsqrt n.toNat) (hc : FloorCbrt fcbrt n.toNat) :
    meissel T fsqrt fcbrt n = .ok (Nat.primeCounting n.toNat : Int) := by
  obtain ⟨l, hl, h2, h3⟩ := hT.last
  unfold meissel
  by_cases h1 : n ≤ 1
  · rw [if_pos h1]
    have : n.toNat = 0 ∨ n.toNat = 1 := by omega
    rcases this with h | h <;> rw [h] <;> rfl
  · rw [if_neg h1, hl]
    dsimp only
    by_cases hnl : n ≤ l
    · rw [if_pos hnl, lookup_small T hT hl n hnl]
    · rw [if_neg hnl]
      obtain ⟨N, rfl⟩ := Int.eq_ofNat_of_zero_le (by omega : 0 ≤ n)
      rw [Int.toNat_natCast] at hs hc ⊢
      obtain ⟨root, t, r, e1, e2, e3, hR⟩ := roots_exist N (by omega)
      rw [e1]
      dsimp only
      rw [C35_pi_table T hT root hR.root_two]
      dsimp only
      rw [e2, e3]
      dsimp only
      have hpc : ∀ k ≤ root, ((List.range (root + 1)).map Nat.primeCounting)[k]? =
          some (Nat.primeCounting k) := by
        intro k hk
        rw [List.getElem?_map, List.getElem?_range (by omega)]
        rfl
      rw [hpc _ hR.t_le_root, hpc _ hR.r_le_root]
      dsimp only
      obtain ⟨m, hm, -⟩ := meisselPhi_spec hpc hs hc (fun y hy => hR.le_root_of_sq hy)
        (pi_mono hR.t_le_root)
        (fun i hi => le_trans (Nat.mul_le_mul (lt_pi_iff.1 hi) (lt_pi_iff.1 hi)) hR.sq_t_le_root)
        (Nat.primeCounting t + 1) (Nat.primeCounting t) N (Nat.lt_succ_self _) hR.pi_t_pos (le_refl _)
        (pi_mono hR.t_le_N) (le_refl _) [] (MemoOk.nil _)
      rw [hm]
      dsimp only
      rw [meisselPhi2_spec hpc N _ _ (pi_mono hR.t_le_r) (pi_mono hR.r_le_root)
        (fun j hj _ => hR.div_le_root (pi_le_iff.1 hj))]
      dsimp only
      rw [hR.formula]
      congr 1
      ring

/-- C103: `lmo(n)` is the number of primes up to `n`, for every integer `n`. -/
theorem C103_lmo (T : List Nat) (hT : IsPrimeTable T) (n : Int) :
    lmo T n = .ok (Nat.primeCounting n.toNat : Int) := by
  obtain ⟨l, hl, h2, h3⟩ := hT.last
  unfold lmo
  by_cases h1 : n ≤ 1
  · rw [if_pos h1]
    have : n.toNat = 0 ∨ n.toNat = 1 := by omega
    rcases this with h | h <;> rw [h] <;> rfl
  · rw [if_neg h1, hl]
    dsimp only
    by_cases hnl : n ≤ l
    · rw [if_pos hnl, lookup_small T hT hl n hnl]
    · rw [if_neg hnl]
      obtain ⟨N, rfl⟩ := Int.eq_ofNat_of_zero_le (by omega : 0 ≤ n)
      rw [Int.toNat_natCast]
      obtain ⟨root, t, r, e1, e2, e3, hR⟩ := roots_exist N (by omega)
      rw [e1]
      dsimp only
      rw [C18_primes T hT, Int.toNat_natCast]
      dsimp only
      rw [e2]
      dsimp only
      rw [e3]
      dsimp only
      rw [bisect_primesUpTo hR.t_le_root, bisect_primesUpTo hR.r_le_root]
      have hcr := pi_mono hR.t_le_r
      have hrr := pi_mono hR.r_le_root
      have htr := pi_mono hR.t_le_root
      have hf := hR.formula
      have hc1 := hR.pi_t_pos
      obtain ⟨c, hc⟩ : ∃ c, c = Nat.primeCounting t := ⟨_, rfl⟩
      obtain ⟨b, hb⟩ : ∃ b, b = Nat.primeCounting r := ⟨_, rfl⟩
      rw [← hc, ← hb] at hcr hf ⊢
      rw [← hb] at hrr
      rw [← hc] at htr hc1
      rw [show pyRange c b = List.range' c (b - c) from rfl, lmoSum_spec (by omega)
        (fun j hj => hR.div_le_root (pi_le_iff.1 (hc ▸ hj)))]
      dsimp only
      obtain ⟨v, sp, hst, hsum, hok, hkeys⟩ := lmoStack_spec hR hc (2 ^ (c + 1)) [(1, c, 1)]
        ((((b : Int) + c - 2) * (b - c + 1)).fdiv 2 -
          ∑ j ∈ Ico c (c + (b - c)), (Nat.primeCounting (N / P j) : Int)) []
        (by simp [stackCost])
        (by
          intro e he
          rw [List.mem_singleton] at he
          subst he
          have := hR.t_two
          exact ⟨hc1, le_refl _, le_refl _, Or.inl rfl, fun _ => rfl, fun h => by dsimp only at h; omega⟩)
        ⟨List.nodup_nil, fun a l h => by simp [Dict.get?] at h⟩
      rw [hst]
      dsimp only
      have hsort : pySort (Dict.keys sp) (· ≤ ·) = List.range' 1 (c - 2) := by
        refine sorted_ext (pySort_nat_lt _ hok.wf) (List.pairwise_lt_range') ?_
        intro k
        rw [mem_pySort, List.mem_range'_1]
        constructor
        · intro hk
          obtain ⟨l, hl⟩ := Dict.get?_isSome.2 hk
          have := hok.ok k l hl
          omega
        · rintro ⟨hk1, hk2⟩
          exact hkeys k hk1 (by omega) (Or.inr ⟨(1, c, 1), by simp, Or.inl ⟨rfl, rfl⟩⟩)
      rw [hsort, blk_zero]
      have hsv := lmoSieve_spec hok htr (c - 2) 1 (le_refl _)
        (fun a ha => mem_pySort.1 (hsort ▸ ha)) v
      rw [Nat.sub_self] at hsv
      rw [hsv, specialSum_eq hok (hsort ▸ pySort_perm _ _), hsum]
      congr 1
      have e5 : stackSum N [(1, c, 1)] = phiN N c := by simp [stackSum]
      have e6 : specialSum [] = 0 := rfl
      rw [e5, e6, hf, show c + (b - c) = b by omega, Finset.sum_sub_distrib, sum_Ico_id c b hcr]
      have e7 : ((b : Int) + c - 2) * (b - c + 1) = ((b : Int) - c) * (b + c - 1) + (c - 1) * 2 := by ring
      rw [e7, Int.fdiv_eq_ediv_of_nonneg _ (by norm_num), Int.fdiv_eq_ediv_of_nonneg _ (by norm_num),
        Int.add_mul_ediv_right _ _ (by norm_num)]
      ring

example : lmo [2, 3, 5, 7] 1000 = .ok 168 ∧ lmo [2, 3, 5, 7] 30 = .ok 10 := by decide +kernel

example : meissel [2, 3, 5, 7] Nat.sqrt
    (fun x => if x < 8 then 1 else if x < 27 then 2 else if x < 64 then 3 else 4) 100 = .ok 25 := by
  decide +kernel

end Rosemary.Props
