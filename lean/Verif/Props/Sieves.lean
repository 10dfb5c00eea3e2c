import Verif.Lemmas.Sieves
import Verif.Lemmas.Chartres
import Verif.Props.Primality

/-!
# C18: the sieves
-/

namespace Rosemary.Props

open Rosemary.Core Rosemary.Sieves Rosemary.Primality Rosemary.Spec

/-- What `primesUpTo` is: an increasing list with exactly the primes up to `n`. -/
theorem C18_primesUpTo (n : Nat) :
    (primesUpTo n).Pairwise (· < ·) ∧ ∀ p, p ∈ primesUpTo n ↔ p.Prime ∧ p ≤ n :=
  ⟨primesUpTo_sorted n, fun _ => mem_primesUpTo⟩

private theorem primesUpTo_small {n : Nat} (h : n ≤ 1) : primesUpTo n = [] := by
  rw [List.eq_nil_iff_forall_not_mem]
  intro p hp
  obtain ⟨h1, h2⟩ := mem_primesUpTo.1 hp
  have := h1.two_le
  omega

/-- C18: `eratosthenes1` never fails and returns the primes up to `n`. -/
theorem C18_eratosthenes1 (n : Int) : eratosthenes1 n = .ok (primesUpTo n.toNat) := by
  unfold eratosthenes1
  split
  · rw [primesUpTo_small (by omega)]
  rename_i hn
  obtain ⟨N, rfl⟩ : ∃ N : Nat, n = N := ⟨n.toNat, by omega⟩
  simp only [Int.toNat_natCast]
  obtain ⟨s, hs, hs1, hs2, -⟩ := integerSqrt_nat (N / 2 + 1)
  rw [hs]
  dsimp only
  have hsm : s < N / 2 + 1 := by
    rcases Nat.lt_or_ge (N / 2 + 1) 4 with h4 | h4
    · have : N / 2 + 1 = 2 ∨ N / 2 + 1 = 3 := by omega
      rcases this with h | h <;> rw [h] at hs ⊢
      · have h2 : integerSqrt ((2 : Nat) : Int) = .ok 1 := by decide +kernel
        rw [h2] at hs; cases hs; omega
      · have h2 : integerSqrt ((3 : Nat) : Int) = .ok 1 := by decide +kernel
        rw [h2] at hs; cases hs; omega
    · have h1 := Nat.sqrt_le' (N / 2 + 1)
      have h2 : 2 ≤ (N / 2 + 1).sqrt := Nat.le_sqrt.2 (by omega)
      nlinarith
  obtain ⟨b, hb, hinv⟩ := era1Loop_spec s hsm 1 (by omega) (by omega)
    (List.replicate (N / 2 + 1) true)
    (Inv.init oddMap (by simp) (fun j _ hj => by simp [hj]))
  rw [hb]
  dsimp only
  have hfin : ∀ i ∈ pyRange 1 (N / 2 + N % 2), b[i]? = some (decide (2 * i + 1).Prime) := by
    intro i hi
    obtain ⟨h1, h2⟩ := mem_pyRange.1 hi
    refine hinv.final oddMap ?_ i (by omega) (by omega)
    intro j hj
    have h4 : N / 2 + 1 < (s + 1) * (s + 1) :=
      lt_of_lt_of_le (Nat.lt_succ_sqrt (N / 2 + 1)) (Nat.mul_le_mul (by omega) (by omega))
    nlinarith
  rw [collect_spec hfin]
  dsimp only
  congr 1
  refine sorted_ext ?_ (primesUpTo_sorted N) ?_
  · refine List.pairwise_cons.2 ⟨?_, ?_⟩
    · intro a ha
      simp only [List.mem_filter, List.mem_map, mem_pyRange] at ha
      obtain ⟨⟨i, hi, rfl⟩, -⟩ := ha
      omega
    · refine List.Pairwise.filter _ (List.pairwise_map.2 ((pyRange_sorted _ _).imp ?_))
      intro a b h; omega
  · intro p
    simp only [List.mem_cons, List.mem_filter, List.mem_map, mem_pyRange, mem_primesUpTo,
      decide_eq_true_eq]
    constructor
    · rintro (rfl | ⟨⟨i, hi, rfl⟩, hp⟩)
      · exact ⟨Nat.prime_two, by omega⟩
      · exact ⟨hp, by omega⟩
    · rintro ⟨hp, hle⟩
      rcases hp.eq_two_or_odd with h2 | h2
      · left; exact h2
      · right
        have := hp.two_le
        exact ⟨⟨p / 2, by omega, by omega⟩, hp⟩

private theorem roundSix_eq (n : Nat) : roundSix n = 6 * ((n + 4) / 6) := by
  have : n % 6 = 0 ∨ n % 6 = 1 ∨ n % 6 = 2 ∨ n % 6 = 3 ∨ n % 6 = 4 ∨ n % 6 = 5 := by omega
  rcases this with h | h | h | h | h | h <;> simp only [roundSix, h] <;> omega

/-- The list assembled at the end of `eratosthenes2` and `luo`. -/
private theorem wheel_list {N : Nat} (hN : 4 ≤ N) :
    (2 :: 3 :: ((pyRange 1 (roundSix (N + 1) / 3 - sixOffset (N + 1))).map wheel).filter
      (fun p => decide p.Prime)) = primesUpTo N := by
  refine sorted_ext ?_ (primesUpTo_sorted N) ?_
  · have hmem : ∀ a, a ∈ ((pyRange 1 (roundSix (N + 1) / 3 - sixOffset (N + 1))).map wheel).filter
        (fun p => decide p.Prime) → 3 < a := by
      intro a ha
      simp only [List.mem_filter, List.mem_map, mem_pyRange] at ha
      obtain ⟨⟨i, hi, rfl⟩, -⟩ := ha
      rw [wheel_eq]; omega
    refine List.pairwise_cons.2 ⟨?_, List.pairwise_cons.2 ⟨hmem, ?_⟩⟩
    · intro a ha
      rcases List.mem_cons.1 ha with rfl | ha
      · omega
      · have := hmem a ha; omega
    · exact List.Pairwise.filter _ (List.pairwise_map.2 ((pyRange_sorted _ _).imp
        (fun h => wheelMap.mono h)))
  · have hidx : ∀ i, i < roundSix (N + 1) / 3 - sixOffset (N + 1) ↔ wheel i ≤ N := by
      intro i
      rw [wheel_eq]
      rw [roundSix_eq]
      unfold sixOffset
      split <;> omega
    intro p
    simp only [List.mem_cons, List.mem_filter, List.mem_map, mem_pyRange, mem_primesUpTo,
      decide_eq_true_eq, hidx]
    constructor
    · rintro (rfl | rfl | ⟨⟨i, hi, rfl⟩, hp⟩)
      · exact ⟨Nat.prime_two, by omega⟩
      · exact ⟨Nat.prime_three, by omega⟩
      · exact ⟨hp, hi.2⟩
    · rintro ⟨hp, hle⟩
      by_cases h2 : p = 2
      · left; exact h2
      by_cases h3 : p = 3
      · right; left; exact h3
      right; right
      have ho : p % 2 = 1 := (hp.eq_two_or_odd).resolve_left h2
      have h3' : p % 3 ≠ 0 := by
        intro h
        exact h3 ((Nat.prime_dvd_prime_iff_eq Nat.prime_three hp).1 (Nat.dvd_of_mod_eq_zero h)).symm
      have := hp.two_le
      refine ⟨⟨p / 3, ⟨by omega, ?_⟩, wheel_surj ho h3'⟩, hp⟩
      rw [wheel_surj ho h3']; exact hle

private theorem roundSix_facts (N : Nat) : roundSix (N + 1) % 6 = 0 ∧ N ≤ roundSix (N + 1) ∧
    roundSix (N + 1) ≤ N + 5 := by
  rw [roundSix_eq]
  omega

/-- C18: `eratosthenes2`. -/
theorem C18_eratosthenes2 (n : Int) : eratosthenes2 n = .ok (primesUpTo n.toNat) := by
  unfold eratosthenes2
  split
  · rw [primesUpTo_small (by omega)]
  rename_i hn
  obtain ⟨N, rfl⟩ : ∃ N : Nat, n = N := ⟨n.toNat, by omega⟩
  split
  · have : N = 2 ∨ N = 3 := by omega
    rcases this with rfl | rfl <;> decide
  rename_i hn3
  have hN4 : 4 ≤ N := by omega
  simp only [Int.toNat_natCast]
  obtain ⟨h6, hle, hle'⟩ := roundSix_facts N
  obtain ⟨s, hs, hs1, hs2, -⟩ := integerSqrt_nat (roundSix (N + 1))
  rw [hs]
  dsimp only
  rw [← wheel_list hN4]
  generalize hR : roundSix (N + 1) = R at *
  have hsq : R < (s + 1) * (s + 1) :=
    lt_of_lt_of_le (Nat.lt_succ_sqrt R) (Nat.mul_le_mul (by omega) (by omega))
  have hs3 : s / 3 < R / 3 := by
    have h1 := Nat.sqrt_le' R
    have h2 : 2 ≤ R.sqrt := Nat.le_sqrt.2 (by omega)
    have : s < R := by nlinarith
    omega
  have h0 : (((List.replicate (R / 3) true).set 0 false)[0]?) = some false := by
    rw [List.getElem?_set_self (by simp; omega)]
  rw [pyRange_cons (by omega)]
  simp only [era2Loop, h0]
  obtain ⟨b, hb, hinv⟩ := era2Loop_spec (s / 3) hs3 1 (by omega) (by omega)
    ((List.replicate (R / 3) true).set 0 false)
    (Inv.init wheelMap (by simp) (fun j h0 hj => by
      rw [List.getElem?_set_ne (by omega)]; simp [hj]))
  rw [hb]
  dsimp only
  have hfin : ∀ i ∈ pyRange 1 (R / 3 - sixOffset (N + 1)), b[i]? = some (decide (wheel i).Prime) := by
    intro i hi
    obtain ⟨h1, h2⟩ := mem_pyRange.1 hi
    refine hinv.final wheelMap ?_ i (by omega) (by omega)
    intro j hj
    have h3 : wheel j < R := by rw [wheel_eq]; omega
    have h4 : s + 1 ≤ wheel (s / 3 + 1) := by rw [wheel_eq]; omega
    calc wheel j < R := h3
      _ < (s + 1) * (s + 1) := hsq
      _ ≤ _ := Nat.mul_le_mul h4 h4
  rw [collect_spec hfin]

/-- C18: `luo`. -/
theorem C18_luo (n : Int) : luo n = .ok (primesUpTo n.toNat) := by
  unfold luo
  split
  · rw [primesUpTo_small (by omega)]
  rename_i hn
  obtain ⟨N, rfl⟩ : ∃ N : Nat, n = N := ⟨n.toNat, by omega⟩
  split
  · have : N = 2 ∨ N = 3 ∨ N = 4 ∨ N = 5 ∨ N = 6 := by omega
    rcases this with rfl | rfl | rfl | rfl | rfl <;> decide
  rename_i hn6
  have hN7 : 7 ≤ N := by omega
  simp only [Int.toNat_natCast]
  obtain ⟨h6, hle, hle'⟩ := roundSix_facts N
  have h12 : 12 ≤ roundSix (N + 1) := by omega
  obtain ⟨s, hs, hs1, hs2, -⟩ := integerSqrt_nat (roundSix (N + 1))
  rw [hs]
  dsimp only
  rw [← wheel_list (by omega : 4 ≤ N)]
  generalize hR : roundSix (N + 1) = R at *
  have hsq : R < (s + 1) * (s + 1) :=
    lt_of_lt_of_le (Nat.lt_succ_sqrt R) (Nat.mul_le_mul (by omega) (by omega))
  have hs3 : s < R / 3 := by
    rcases Nat.lt_or_ge R 18 with h | h
    · have : R = 12 := by omega
      subst this
      have h2 : integerSqrt ((12 : Nat) : Int) = .ok 3 := by decide +kernel
      rw [h2] at hs; cases hs; omega
    · have h1 := Nat.sqrt_le' R
      have h2 : 4 ≤ R.sqrt := Nat.le_sqrt.2 (by omega)
      obtain ⟨q, rfl⟩ : ∃ q, R = 3 * q := ⟨R / 3, by omega⟩
      rw [Nat.mul_div_cancel_left _ (by omega)]
      rcases Nat.lt_or_ge (3 * q).sqrt 5 with h5 | h5
      · omega
      · nlinarith
  obtain ⟨b, hb, hinv⟩ := luoLoop_spec s hs3 1 (by omega) (by omega) 0 1 2
    (by refine ⟨by omega, ?_, ?_⟩ <;> decide) (List.replicate (R / 3) true)
    (Inv.init wheelMap (by simp) (fun j h0 hj => by simp [hj]))
  rw [hb]
  dsimp only
  have hfin : ∀ i ∈ pyRange 1 (R / 3 - sixOffset (N + 1)), b[i]? = some (decide (wheel i).Prime) := by
    intro i hi
    obtain ⟨h1, h2⟩ := mem_pyRange.1 hi
    refine hinv.final wheelMap ?_ i (by omega) (by omega)
    intro j hj
    have h3 : wheel j < R := by rw [wheel_eq]; omega
    have h4 : s + 1 ≤ wheel (s + 1) := by rw [wheel_eq]; omega
    calc wheel j < R := h3
      _ < (s + 1) * (s + 1) := hsq
      _ ≤ _ := Nat.mul_le_mul h4 h4
  rw [collect_spec hfin]

theorem takeWhile_sorted {T : List Nat} (hs : T.Pairwise (· < ·)) (n : Int) (p : Nat) :
    p ∈ T.takeWhile (fun q : Nat => decide ((q : Int) ≤ n)) ↔ p ∈ T ∧ (p : Int) ≤ n := by
  induction T with
  | nil => simp
  | cons a T ih =>
    rw [List.pairwise_cons] at hs
    rw [List.takeWhile_cons]
    split
    · rename_i h
      simp only [decide_eq_true_eq] at h
      rw [List.mem_cons, ih hs.2, List.mem_cons]
      constructor
      · rintro (rfl | h1)
        · exact ⟨.inl rfl, h⟩
        · exact ⟨.inr h1.1, h1.2⟩
      · rintro ⟨rfl | h1, h2⟩
        · exact .inl rfl
        · exact .inr ⟨h1, h2⟩
    · rename_i h
      simp only [decide_eq_true_eq] at h
      simp only [List.not_mem_nil, List.mem_cons, false_iff, not_and]
      rintro (rfl | h1)
      · exact h
      · have := hs.1 p h1; omega

theorem take_bisectRight (T : List Nat) (n : Int) :
    T.take (bisectRight T n) = T.takeWhile (fun q : Nat => decide ((q : Int) ≤ n)) := by
  unfold bisectRight
  exact (List.prefix_iff_eq_take.1 (List.takeWhile_prefix _)).symm

/-- C18: `primes`, for any table that lists all primes up to its last entry. -/
theorem C18_primes (T : List Nat) (hT : IsPrimeTable T) (n : Int) :
    primes T n = .ok (primesUpTo n.toNat) := by
  obtain ⟨l, hl, h2, h3⟩ := hT.last
  unfold primes
  rw [hl]
  dsimp only
  split
  · rename_i hlt
    rw [take_bisectRight]
    congr 1
    refine sorted_ext (hT.sorted.sublist (List.takeWhile_sublist _)) (primesUpTo_sorted _) ?_
    intro p
    rw [takeWhile_sorted hT.sorted, mem_primesUpTo, h3]
    constructor
    · rintro ⟨⟨h4, -⟩, h5⟩; exact ⟨h4, by omega⟩
    · rintro ⟨h4, h5⟩
      have := h4.two_le
      exact ⟨⟨h4, by omega⟩, by omega⟩
  · exact C18_eratosthenes2 n

/-- C18: `primes` with the real table. -/
theorem C18_primes_real (n : Int) : primes primeList n = .ok (primesUpTo n.toNat) :=
  C18_primes _ primeList_isPrimeTable n

/-! ### primes_first_n -/

/-- `primes_first_n(n)` is always a list of the smallest primes; there are `n` of them as soon as the
float estimate of line 87 is not below the `n`-th prime. -/
theorem C18_primes_first_n_partial (T : List Nat) (hT : IsPrimeTable T) (bound : Nat → Int)
    (n : Nat) :
    ∃ L, primesFirstN T bound n = .ok L ∧ L.Pairwise (· < ·) ∧ (∀ p ∈ L, p.Prime) ∧
      (∀ p ∈ L, ∀ q, q.Prime → q ≤ p → q ∈ L) ∧ L.length ≤ n ∧
      (n ≤ (primesUpTo (bound n).toNat).length → L.length = n) := by
  obtain ⟨l, hl, h2, h3⟩ := hT.last
  have key : ∀ (M : List Nat) (k B : Nat), M.Pairwise (· < ·) → (∀ p, p ∈ M ↔ p.Prime ∧ p ≤ B) →
      (M.take k).Pairwise (· < ·) ∧ (∀ p ∈ M.take k, p.Prime) ∧
      (∀ p ∈ M.take k, ∀ q, q.Prime → q ≤ p → q ∈ M.take k) := by
    intro M k B hs hm
    refine ⟨hs.sublist (List.take_sublist _ _),
      fun p hp => ((hm p).1 (List.mem_of_mem_take hp)).1, ?_⟩
    intro p hp q hq hle
    have hpM := (hm p).1 (List.mem_of_mem_take hp)
    have hqM : q ∈ M := (hm q).2 ⟨hq, hle.trans hpM.2⟩
    rw [← List.take_append_drop k M, List.mem_append] at hqM
    rcases hqM with h | h
    · exact h
    · exfalso
      have h4 : (M.take k ++ M.drop k).Pairwise (· < ·) := by rw [List.take_append_drop]; exact hs
      have := (List.pairwise_append.1 h4).2.2 p hp q h
      omega
  unfold primesFirstN
  by_cases h0 : (n : Int) ≤ 0
  · rw [if_pos h0]
    exact ⟨[], rfl, by simp, by simp, by simp, by simp, by simp; omega⟩
  rw [if_neg h0]
  by_cases h1 : (n : Int) < T.length
  · rw [if_pos h1, Int.toNat_natCast]
    obtain ⟨k1, k2, k3⟩ := key T n l hT.sorted h3
    exact ⟨_, rfl, k1, k2, k3, by simp, fun _ => by rw [List.length_take]; omega⟩
  · rw [if_neg h1, Int.toNat_natCast, C18_eratosthenes2]
    obtain ⟨k1, k2, k3⟩ := key (primesUpTo (bound n).toNat) n _ (primesUpTo_sorted _)
      (fun p => mem_primesUpTo)
    exact ⟨_, rfl, k1, k2, k3, by simp, fun h => by rw [List.length_take]; omega⟩

/-! ### pritchard -/

theorem pritchardInner_spec {n f : Nat} (hf : 2 ≤ f) (ps : List Nat) (hps : ∀ p ∈ ps, p.Prime)
    (hs : ps.Pairwise (· < ·)) (block : List Bool) (hl : block.length = n + 1) :
    ∃ b, pritchardInner n f ps block = .ok b ∧ b.length = n + 1 ∧
      ∀ j, j ≤ n → (b[j]? = some false ↔ block[j]? = some false ∨
        ∃ p ∈ ps, p * f = j ∧ ∀ q ∈ ps, q < p → ¬ q ∣ f) := by
  induction ps generalizing block with
  | nil => exact ⟨block, rfl, hl, by simp⟩
  | cons p ps ih =>
    have hp := hps p (by simp)
    rw [List.pairwise_cons] at hs
    unfold pritchardInner
    by_cases h1 : p * f > n
    · rw [if_pos h1]
      refine ⟨block, rfl, hl, fun j hj => ⟨fun h => .inl h, ?_⟩⟩
      rintro (h | ⟨q, hq, rfl, -⟩)
      · exact h
      · exfalso
        rcases List.mem_cons.1 hq with rfl | hq
        · omega
        · have := Nat.mul_lt_mul_of_pos_right (hs.1 q hq) (by omega : 0 < f)
          omega
    rw [if_neg h1, if_pos (by omega)]
    dsimp only
    have hset : ∀ j, j ≤ n → ((block.set (p * f) false)[j]? = some false ↔
        block[j]? = some false ∨ p * f = j) := by
      intro j hj
      rw [List.getElem?_set]
      by_cases he : p * f = j
      · subst he
        simp; omega
      · simp [he]
    by_cases h2 : f % p = 0
    · rw [if_pos h2]
      refine ⟨_, rfl, by simp [hl], fun j hj => ?_⟩
      rw [hset j hj]
      refine or_congr Iff.rfl ⟨fun h => ⟨p, by simp, h, ?_⟩, ?_⟩
      · intro q hq hlt
        rcases List.mem_cons.1 hq with rfl | hq
        · omega
        · have := hs.1 q hq; omega
      · rintro ⟨q, hq, rfl, hall⟩
        rcases List.mem_cons.1 hq with rfl | hq
        · rfl
        · exact absurd (Nat.dvd_of_mod_eq_zero h2) (hall p (by simp) (hs.1 q hq))
    · rw [if_neg h2]
      obtain ⟨b, hb, hbl, hbj⟩ := ih (fun q hq => hps q (by simp [hq])) hs.2 (block.set (p * f) false)
        (by simp [hl])
      refine ⟨b, hb, hbl, fun j hj => ?_⟩
      rw [hbj j hj, hset j hj, or_assoc]
      refine or_congr Iff.rfl ?_
      constructor
      · rintro (h | ⟨q, hq, he, hall⟩)
        · refine ⟨p, by simp, h, ?_⟩
          intro q hq hlt
          rcases List.mem_cons.1 hq with rfl | hq
          · omega
          · have := hs.1 q hq; omega
        · refine ⟨q, by simp [hq], he, ?_⟩
          intro r hr hlt
          rcases List.mem_cons.1 hr with rfl | hr
          · exact fun hd => h2 (Nat.mod_eq_zero_of_dvd hd)
          · exact hall r hr hlt
      · rintro ⟨q, hq, he, hall⟩
        rcases List.mem_cons.1 hq with rfl | hq
        · left; exact he
        · right; exact ⟨q, hq, he, fun r hr hlt => hall r (by simp [hr]) hlt⟩

theorem pritchardLoop_spec {n : Nat} (ps : List Nat) (hps : ∀ p ∈ ps, p.Prime)
    (hs : ps.Pairwise (· < ·)) (fs : List Nat) (hfs : ∀ f ∈ fs, 2 ≤ f) (block : List Bool)
    (hl : block.length = n + 1) :
    ∃ b, pritchardLoop n ps fs block = .ok b ∧ b.length = n + 1 ∧
      ∀ j, j ≤ n → (b[j]? = some false ↔ block[j]? = some false ∨
        ∃ f ∈ fs, ∃ p ∈ ps, p * f = j ∧ ∀ q ∈ ps, q < p → ¬ q ∣ f) := by
  induction fs generalizing block with
  | nil => exact ⟨block, rfl, hl, by simp⟩
  | cons f fs ih =>
    unfold pritchardLoop
    obtain ⟨b1, hb1, hl1, hj1⟩ := pritchardInner_spec (hfs f (by simp)) ps hps hs block hl
    rw [hb1]
    obtain ⟨b, hb, hbl, hbj⟩ := ih (fun g hg => hfs g (by simp [hg])) b1 hl1
    refine ⟨b, hb, hbl, fun j hj => ?_⟩
    rw [hbj j hj, hj1 j hj, or_assoc]
    refine or_congr Iff.rfl ?_
    constructor
    · rintro (h | ⟨g, hg, h⟩)
      · exact ⟨f, by simp, h⟩
      · exact ⟨g, by simp [hg], h⟩
    · rintro ⟨g, hg, h⟩
      rcases List.mem_cons.1 hg with rfl | hg
      · exact .inl h
      · exact .inr ⟨g, hg, h⟩

/-- C18: `pritchard`. -/
theorem C18_pritchard (T : List Nat) (hT : IsPrimeTable T) (n : Int) :
    pritchard T n = .ok (primesUpTo n.toNat) := by
  unfold pritchard
  split
  · rw [primesUpTo_small (by omega)]
  rename_i hn
  obtain ⟨N, rfl⟩ : ∃ N : Nat, n = N := ⟨n.toNat, by omega⟩
  simp only [Int.toNat_natCast]
  obtain ⟨s, hs, hs1, hs2, -⟩ := integerSqrt_nat N
  rw [hs]
  dsimp only
  rw [C18_primes T hT, Int.toNat_natCast]
  dsimp only
  obtain ⟨b, hb, hbl, hbj⟩ := pritchardLoop_spec (n := N) (primesUpTo s)
    (fun p hp => (mem_primesUpTo.1 hp).1) (primesUpTo_sorted s) (pyRange 2 (N / 2 + 1))
    (fun f hf => (mem_pyRange.1 hf).1)
    (((List.replicate (N + 1) true).set 0 false).set 1 false) (by simp)
  rw [hb]
  dsimp only
  have hfin : ∀ i ∈ pyRange 2 (N + 1), b[i]? = some (decide (i : Nat).Prime) := by
    intro i hi
    obtain ⟨h1, h2⟩ := mem_pyRange.1 hi
    have hinit : (((List.replicate (N + 1) true).set 0 false).set 1 false)[i]? = some true := by
      rw [List.getElem?_set_ne (by omega), List.getElem?_set_ne (by omega)]
      simp [h2]
    have key : b[i]? = some false ↔ ¬ i.Prime := by
      rw [hbj i (by omega), hinit]
      simp only [Option.some.injEq, Bool.true_eq_false, false_or]
      constructor
      · rintro ⟨f, hf, p, hp, rfl, -⟩
        have hp' := (mem_primesUpTo.1 hp).1.two_le
        have hf' := (mem_pyRange.1 hf).1
        exact Nat.not_prime_mul (by omega) (by omega)
      · intro hnp
        have hm := Nat.minFac_prime (n := i) (by omega)
        have hsq := Nat.minFac_sq_le_self (by omega) hnp
        have hle : i.minFac ≤ s := by
          have : i.minFac ≤ N.sqrt := Nat.le_sqrt.2 (by rw [sq] at hsq; omega)
          omega
        have hmul := Nat.mul_div_cancel' (Nat.minFac_dvd i)
        have htwo := hm.two_le
        generalize hpm : i.minFac = p at *
        generalize hfi : i / p = f at *
        have hpf : p ≤ f := by
          rw [sq, ← hmul] at hsq
          exact Nat.le_of_mul_le_mul_left hsq (by omega)
        refine ⟨f, mem_pyRange.2 ⟨by omega, ?_⟩, p, mem_primesUpTo.2 ⟨hm, hle⟩, hmul, ?_⟩
        · have : 2 * f ≤ p * f := Nat.mul_le_mul_right _ htwo
          omega
        · intro q hq hlt hd
          have hq' := (mem_primesUpTo.1 hq).1
          have : i.minFac ≤ q := Nat.minFac_le_of_dvd hq'.two_le (hmul ▸ hd.mul_left p)
          omega
    rcases get_bool hbl h2 with ht | hf
    · have : i.Prime := by
        by_contra hc
        rw [key.2 hc] at ht; simp at ht
      simp [ht, this]
    · simp [hf, key.1 hf]
  rw [collect_spec hfin, List.map_id']
  congr 1
  refine sorted_ext (List.Pairwise.filter _ (pyRange_sorted _ _)) (primesUpTo_sorted N) ?_
  intro p
  simp only [List.mem_filter, mem_pyRange, mem_primesUpTo, decide_eq_true_eq]
  constructor
  · rintro ⟨h1, h2⟩; exact ⟨h2, by omega⟩
  · rintro ⟨h1, h2⟩; exact ⟨⟨h1.two_le, by omega⟩, h1⟩

/-- C18: `chartres` terminates, never fails and returns the primes up to `n`. -/
theorem C18_chartres (n : Int) : chartres n = some (.ok (some (primesUpTo n.toNat))) :=
  chartres_spec n

example : chartres 30 = some (.ok (some [2, 3, 5, 7, 11, 13, 17, 19, 23, 29])) := by
  rw [C18_chartres]; decide +kernel
example : eratosthenes1 30 = .ok [2, 3, 5, 7, 11, 13, 17, 19, 23, 29] := by decide +kernel
example : eratosthenes2 49 = .ok [2, 3, 5, 7, 11, 13, 17, 19, 23, 29, 31, 37, 41, 43, 47] := by
  decide +kernel
example : luo 25 = .ok [2, 3, 5, 7, 11, 13, 17, 19, 23] := by decide +kernel
example : pritchard [2, 3, 5, 7] 25 = .ok [2, 3, 5, 7, 11, 13, 17, 19, 23] := by decide +kernel
example : primes [2, 3, 5, 7] 6 = .ok [2, 3, 5] ∧ primes [2, 3, 5, 7] 13 = .ok [2, 3, 5, 7, 11, 13] := by
  decide +kernel
example : primesFirstN [2, 3, 5, 7] (fun _ => 13) 5 = .ok [2, 3, 5, 7, 11] := by decide +kernel
example : primesUpTo 30 = [2, 3, 5, 7, 11, 13, 17, 19, 23, 29] := by decide +kernel

end Rosemary.Props
