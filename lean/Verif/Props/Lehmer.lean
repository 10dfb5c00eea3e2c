import Verif.Props.MeisselLehmer
import Verif.Lemmas.Lehmer

/-!
# C104: the prime counting function `lehmer`

`lehmer(n)` is not always the number of primes up to `n`.  Above the table of primes let `p` be the least
prime with `p^4 > n`.  If there is a prime `q` with `n // p < q` and `q^4 <= n^3` the answer is right
(`C104_lehmer_partial`); if there is none it is too small (`C104_lehmer_violation`).  The second case occurs
for every `n = p^4 - 1` (`C104_lehmer_fourth_powers`), the first one above the table being `37^4 - 1`.
-/

namespace Rosemary.Props

open Rosemary.Core Rosemary.Sieves Rosemary.Spec Rosemary.Primality Rosemary.PrimeCounting Finset

private theorem lroots_exist (N : Nat) (hN : 4097 ≤ N) : ∃ root r4 r3 r2 : Nat,
    integerNthRoot 4 ((N : Int) ^ 3) = .ok root ∧ integerNthRoot 4 (N : Int) = .ok r4 ∧
      integerNthRoot 3 (N : Int) = .ok r3 ∧ integerSqrt (N : Int) = .ok r2 ∧ LRoots N root r4 r3 r2 := by
  obtain ⟨root, h1, h2, h3⟩ := C08_integer_nth_root_partial 4 ((N : Int) ^ 3) (by norm_num) (by positivity)
    (by norm_num)
  obtain ⟨r4, h4, h5, h6⟩ := C08_integer_nth_root_partial 4 (N : Int) (by norm_num) (by positivity)
    (by norm_num)
  obtain ⟨r3, h7, h8, h9⟩ := C08_integer_nth_root_partial 3 (N : Int) (by norm_num) (by positivity)
    (by norm_num)
  obtain ⟨r2, h10, h11, h12⟩ := integerSqrt_slack N
  refine ⟨root, r4, r3, r2, h1, h4, h7, h10, hN, ?_, ?_, ?_, ?_, ?_, ?_, h12, h11⟩
  · have h2 : (root : Int) ^ 4 ≤ (N : Int) ^ 3 := h2
    exact_mod_cast h2
  · have h3 : (N : Int) ^ 3 < ((root : Int) + 1) ^ 4 := h3
    exact_mod_cast h3
  · have h5 : (r4 : Int) ^ 4 ≤ (N : Int) := h5
    exact_mod_cast h5
  · have h6 : (N : Int) < ((r4 : Int) + 1) ^ 4 := h6
    exact_mod_cast h6
  · have h8 : (r3 : Int) ^ 3 ≤ (N : Int) := h8
    exact_mod_cast h8
  · have h9 : (N : Int) < ((r3 : Int) + 1) ^ 3 := h9
    exact_mod_cast h9

/-- The value of `lehmer`, with the error of each call of `phi`. -/
private theorem lehmer_value (T : List Nat) (hT : IsPrimeTable T) (l : Nat) (hl : T.getLast? = some l)
    (h4096 : 4096 ≤ l) (fsqrt : Nat → Nat) (N : Nat) (hN : l < N) (hs : FloorSqrt fsqrt N) :
    ∃ root r4 r3 r2, LRoots N root r4 r3 r2 ∧
      lehmer T fsqrt N = .ok ((Nat.primeCounting N : Int) -
        ∑ j ∈ Ico (Nat.primeCounting r4) (Nat.primeCounting r2),
          (lehW fsqrt root (Nat.primeCounting r4) (N / P j) (Nat.primeCounting r2) + Nat.primeCounting r2 - 1 -
            Nat.primeCounting (N / P j))) := by
  obtain ⟨root, r4, r3, r2, e1, e2, e3, e4, h⟩ := lroots_exist N (by omega)
  refine ⟨root, r4, r3, r2, h, ?_⟩
  unfold lehmer
  rw [if_neg (by omega), hl]
  dsimp only
  rw [if_neg (by omega), e1]
  dsimp only
  rw [C18_primes T hT, Int.toNat_natCast]
  dsimp only
  rw [e2]
  dsimp only
  rw [e4]
  dsimp only
  rw [e3]
  dsimp only
  have h2r := h.two_r2_le_root
  have h43 := h.r4_le_r3
  have h32 := h.r3_le_r2
  have h4 := h.r4_ge
  rw [bisect_primesUpTo (by omega : r4 ≤ root), bisect_primesUpTo (by omega : r2 ≤ root),
    bisect_primesUpTo (by omega : r3 ≤ root), Int.toNat_natCast]
  have hp43 := pi_mono h43
  have hp32 := pi_mono h32
  have hA : 0 < Nat.primeCounting r4 := lt_pi_iff.2 (by rw [P_zero]; omega)
  obtain ⟨m1, f1, hm1⟩ := lehmerPhi_spec h hs (Nat.primeCounting r4 + Nat.primeCounting r2 + 1)
    (Nat.primeCounting r4) N (by omega) hA (by omega) (le_refl _) (Or.inr (le_refl _)) [] (MemoOk.nil _)
  rw [f1]
  dsimp only
  obtain ⟨m2, f2, hm2⟩ := lehmerPhi2_spec h hs (Nat.primeCounting r4 + Nat.primeCounting r2 + 1) (by omega)
    (Nat.primeCounting r2 - Nat.primeCounting r4) (Nat.primeCounting r4) (le_refl _) (by omega) 0 m1 hm1
  rw [show pyRange (Nat.primeCounting r4) (Nat.primeCounting r2) = List.range' (Nat.primeCounting r4)
    (Nat.primeCounting r2 - Nat.primeCounting r4) from rfl, f2]
  dsimp only
  obtain ⟨m3, f3, -⟩ := lehmerPhi3_spec h hs (Nat.primeCounting r4 + Nat.primeCounting r2 + 1) (by omega)
    (Nat.primeCounting r3 - Nat.primeCounting r4) (Nat.primeCounting r4) (le_refl _) (by omega) 0 m2 hm2
  rw [show pyRange (Nat.primeCounting r4) (Nat.primeCounting r3) = List.range' (Nat.primeCounting r4)
    (Nat.primeCounting r3 - Nat.primeCounting r4) from rfl, f3]
  dsimp only
  rw [show Nat.primeCounting r4 + (Nat.primeCounting r2 - Nat.primeCounting r4) = Nat.primeCounting r2 by omega,
    show Nat.primeCounting r4 + (Nat.primeCounting r3 - Nat.primeCounting r4) = Nat.primeCounting r3 by omega]
  have hW : lehW fsqrt root (Nat.primeCounting r4) N (Nat.primeCounting r4) = phiN N (Nat.primeCounting r4) := by
    have h3 : lastP root ≤ root := lastP_le (by omega)
    have h5 := h.root_le_N
    unfold lehW
    rw [if_pos (Or.inr (Or.inl (le_refl _))), lehV, if_neg (by omega)]
  have hf := h.formula
  have hsplit : ∑ j ∈ Ico (Nat.primeCounting r4) (Nat.primeCounting r2),
      (lehW fsqrt root (Nat.primeCounting r4) (N / P j) (Nat.primeCounting r2) + Nat.primeCounting r2 - 1 -
        (Nat.primeCounting (N / P j) : Int)) =
      ∑ j ∈ Ico (Nat.primeCounting r4) (Nat.primeCounting r2),
        (lehW fsqrt root (Nat.primeCounting r4) (N / P j) (Nat.primeCounting r2) + Nat.primeCounting r2 - 1) -
      ∑ j ∈ Ico (Nat.primeCounting r4) (Nat.primeCounting r2), (Nat.primeCounting (N / P j) : Int) :=
    Finset.sum_sub_distrib ..
  rw [hW, hsplit]
  congr 1
  linarith

/-- The least prime whose fourth power exceeds `n`. -/
private theorem least_prime {N root r4 r3 r2 p : Nat} (h : LRoots N root r4 r3 r2) (hp : p.Prime)
    (h1 : N < p ^ 4) (h2 : ∀ q : Nat, q.Prime → N < q ^ 4 → p ≤ q) : p = P (Nat.primeCounting r4) := by
  apply le_antisymm
  · apply h2 _ (P_prime _)
    have h3 := pi_le_iff.1 (le_refl (Nat.primeCounting r4))
    exact lt_of_lt_of_le h.r4_lt (Nat.pow_le_pow_left h3 4)
  · obtain ⟨i, rfl⟩ := exists_P hp
    rw [P_le]
    by_contra hc
    have h3 := lt_pi_iff.1 (Nat.lt_of_not_le hc)
    have h4 := Nat.pow_le_pow_left h3 4
    have h5 := h.r4_le
    omega

private theorem r4_lt_r2 {N root r4 r3 r2 : Nat} (h : LRoots N root r4 r3 r2) :
    Nat.primeCounting r4 < Nat.primeCounting r2 := by
  have h4 := h.r4_ge
  obtain ⟨q, hq, h1, h2⟩ := Nat.exists_prime_lt_and_le_two_mul r4 (by omega)
  obtain ⟨i, rfl⟩ := exists_P hq
  have h3 := pi_le_iff.2 h1
  have h5 : i < Nat.primeCounting r2 := lt_pi_iff.2 (by
    have h6 := h.sq_r4_le_r2
    have : 2 * r4 ≤ r4 * r4 := Nat.mul_le_mul_right _ (by omega)
    omega)
  omega

/-- C104: `lehmer(n)` is the number of primes up to `n` if `n` is in the range of the table, or if there is a
prime `q` with `n // p < q <= n^(3/4)`, where `p` is the least prime greater than `n^(1/4)`.  (The table has
to reach 4096 at least; that of the code ends with 999983.)  Missing: the other `n`, where the answer is
wrong, see `C104_lehmer_violation`. -/
theorem C104_lehmer_partial (T : List Nat) (hT : IsPrimeTable T) (l : Nat) (hl : T.getLast? = some l)
    (h4096 : 4096 ≤ l) (fsqrt : Nat → Nat) (n : Int) (hs : FloorSqrt fsqrt n.toNat)
    (hn : n ≤ l ∨ ∃ p q : Nat, p.Prime ∧ n < (p : Int) ^ 4 ∧
      (∀ p' : Nat, p'.Prime → n < (p' : Int) ^ 4 → p ≤ p') ∧ q.Prime ∧ n.toNat / p < q ∧ (q : Int) ^ 4 ≤ n ^ 3) :
    lehmer T fsqrt n = .ok (Nat.primeCounting n.toNat : Int) := by
  by_cases h1 : n ≤ 1
  · unfold lehmer
    rw [if_pos h1]
    have : n.toNat = 0 ∨ n.toNat = 1 := by omega
    rcases this with h | h <;> rw [h] <;> rfl
  by_cases hnl : n ≤ l
  · unfold lehmer
    rw [if_neg h1, hl]
    dsimp only
    rw [if_pos hnl, lookup_small T hT hl n hnl]
  · obtain ⟨N, rfl⟩ := Int.eq_ofNat_of_zero_le (by omega : 0 ≤ n)
    rw [Int.toNat_natCast] at hs hn ⊢
    rcases hn with hn | ⟨p, q, hp, hp1, hp2, hq, hq1, hq2⟩
    · exact absurd hn hnl
    · obtain ⟨root, r4, r3, r2, h, hv⟩ := lehmer_value T hT l hl h4096 fsqrt N (by omega) hs
      rw [hv, Finset.sum_eq_zero, sub_zero]
      have hpA := least_prime h hp (by exact_mod_cast hp1) (fun p' h1 h2 => hp2 p' h1 (by exact_mod_cast h2))
      have hqr : q ≤ root := h.le_root (by exact_mod_cast hq2)
      have hqL : q ≤ lastP root := by
        obtain ⟨i, rfl⟩ := exists_P hq
        have := lt_pi_iff.2 hqr
        exact P_le.2 (by omega)
      intro j hj
      rw [mem_Ico] at hj
      have hle : N / P j ≤ N / p := Nat.div_le_div_left (by rw [hpA]; exact P_le.2 hj.1) hp.pos
      rw [lehW_small h hs (Nat.div_le_self _ _) (by omega)]
      ring

/-- C104 (violation): above the table, if no prime `q` satisfies `n // p < q <= n^(3/4)`, where `p` is the
least prime greater than `n^(1/4)`, then `lehmer(n)` is smaller than the number of primes up to `n`. -/
theorem C104_lehmer_violation (T : List Nat) (hT : IsPrimeTable T) (l : Nat) (hl : T.getLast? = some l)
    (h4096 : 4096 ≤ l) (fsqrt : Nat → Nat) (n p : Nat) (hs : FloorSqrt fsqrt n) (hn : l < n) (hp : p.Prime)
    (hp1 : n < p ^ 4) (hp2 : ∀ p' : Nat, p'.Prime → n < p' ^ 4 → p ≤ p')
    (hq : ∀ q : Nat, q.Prime → q ^ 4 ≤ n ^ 3 → q ≤ n / p) :
    ∃ v, lehmer T fsqrt n = .ok v ∧ v < Nat.primeCounting n := by
  obtain ⟨root, r4, r3, r2, h, hv⟩ := lehmer_value T hT l hl h4096 fsqrt n hn hs
  refine ⟨_, hv, ?_⟩
  have hpA := least_prime h hp hp1 hp2
  have h42 := r4_lt_r2 h
  have h2r := h.two_r2_le_root
  have hL : lastP root ≤ n / p := hq _ (P_prime _) (by
    have := lastP_le (root := root) (by omega)
    exact le_trans (Nat.pow_le_pow_left this 4) h.root_le)
  have hge : ∀ j ∈ Ico (Nat.primeCounting r4) (Nat.primeCounting r2),
      0 ≤ lehW fsqrt root (Nat.primeCounting r4) (n / P j) (Nat.primeCounting r2) + Nat.primeCounting r2 - 1 -
            Nat.primeCounting (n / P j) := by
    intro j hj
    rw [mem_Ico] at hj
    rcases Nat.lt_or_ge (n / P j) (lastP root) with h3 | h3
    · rw [lehW_small h hs (Nat.div_le_self _ _) h3]
      omega
    · have := lehW_bad h hs (h.div_le_root (pi_le_iff.1 hj.1)) h3 h42
      omega
  have hlt : 0 < ∑ j ∈ Ico (Nat.primeCounting r4) (Nat.primeCounting r2),
      (lehW fsqrt root (Nat.primeCounting r4) (n / P j) (Nat.primeCounting r2) + Nat.primeCounting r2 - 1 -
            Nat.primeCounting (n / P j)) := by
    apply Finset.sum_pos' hge
    refine ⟨Nat.primeCounting r4, mem_Ico.2 ⟨le_refl _, h42⟩, ?_⟩
    have := lehW_bad h hs (h.div_le_root (pi_le_iff.1 (le_refl _))) (hpA ▸ hL) h42
    omega
  omega

/-- C104 (violation): `lehmer(p**4 - 1)` is too small for every prime `p` with `p^4 - 1` above the table. -/
theorem C104_lehmer_fourth_powers (T : List Nat) (hT : IsPrimeTable T) (l : Nat) (hl : T.getLast? = some l)
    (h4096 : 4096 ≤ l) (fsqrt : Nat → Nat) (p : Nat) (hp : p.Prime) (hpl : l < p ^ 4 - 1)
    (hs : FloorSqrt fsqrt (p ^ 4 - 1)) :
    ∃ v, lehmer T fsqrt ((p ^ 4 - 1 : Nat) : Int) = .ok v ∧ v < Nat.primeCounting (p ^ 4 - 1) := by
  have hp0 := hp.pos
  have h4 : 0 < p ^ 4 := Nat.pow_pos hp0
  refine C104_lehmer_violation T hT l hl h4096 fsqrt _ p hs hpl hp (by omega) ?_ ?_
  · intro p' hp' h1
    by_contra hc
    have := Nat.pow_le_pow_left (show p' ≤ p - 1 by omega) 4
    have h2 : (p - 1) ^ 4 < p ^ 4 := Nat.pow_lt_pow_left (by omega) (by norm_num)
    omega
  · intro q hq h1
    have h2 : q < p ^ 3 := by
      by_contra hc
      have h3 := Nat.pow_le_pow_left (Nat.le_of_not_lt hc) 4
      have h5 : (p ^ 4 - 1) ^ 3 < (p ^ 4) ^ 3 := Nat.pow_lt_pow_left (by omega) (by norm_num)
      have h6 : (p ^ 3) ^ 4 = (p ^ 4) ^ 3 := by ring
      omega
    rw [Nat.le_div_iff_mul_le hp0]
    have h3 := Nat.mul_le_mul_right p (show q + 1 ≤ p ^ 3 from h2)
    have h5 : p ^ 3 * p = p ^ 4 := by ring
    have h6 : (q + 1) * p = q * p + p := by ring
    omega

theorem primeList_last : primeList.getLast? = some 999983 := by
  obtain ⟨l, hl, -, h3⟩ := primeList_isPrimeTable.last
  rw [hl]
  have h1 : 999983 ∈ primeList := by
    simp only [primeList, List.mem_filter, List.mem_range, decide_eq_true_eq]
    exact ⟨by omega, by norm_num⟩
  have h2 : l ∈ primeList := List.mem_of_getLast? hl
  have h4 := ((h3 _).1 h1).2
  simp only [primeList, List.mem_filter, List.mem_range, decide_eq_true_eq] at h2
  obtain ⟨h5, h6⟩ := h2
  by_cases hc : l = 999983
  · rw [hc]
  · exfalso
    have h7 : l ≤ 1000000 := by omega
    have h8 : 999984 ≤ l := by omega
    interval_cases l <;> revert h6 <;> norm_num

/-- C104 (violation), with the table of the code and an exact square root: `lehmer(1874160)`, where
`1874160 = 37^4 - 1`, is too small. -/
theorem C104_lehmer_witness :
    ∃ v, lehmer primeList Nat.sqrt 1874160 = .ok v ∧ v < Nat.primeCounting 1874160 := by
  have := C104_lehmer_fourth_powers primeList primeList_isPrimeTable 999983 primeList_last (by norm_num)
    Nat.sqrt 37 (by norm_num) (by norm_num) (fun x _ => ⟨Nat.sqrt_le x, Nat.lt_succ_sqrt x⟩)
  exact this

/-- For `n = 2000000` the shortcut is taken soon enough: the prime 50021 lies between `n // 41` and `n^(3/4)`. -/
example : lehmer primeList Nat.sqrt 2000000 = .ok (Nat.primeCounting 2000000 : Int) := by
  refine C104_lehmer_partial primeList primeList_isPrimeTable 999983 primeList_last (by norm_num)
    Nat.sqrt 2000000 (fun x _ => ⟨Nat.sqrt_le x, Nat.lt_succ_sqrt x⟩) (Or.inr ⟨41, 50021, by norm_num, by norm_num, ?_, by norm_num, by decide,
      by norm_num⟩)
  intro p hp h
  by_contra hc
  have : p ≤ 40 := by omega
  interval_cases p <;> first | (norm_num at h; done) | (norm_num at hp; done)

end Rosemary.Props
