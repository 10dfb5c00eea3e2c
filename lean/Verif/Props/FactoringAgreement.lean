import Verif.Props.Fermat
import Verif.Props.Pollard
import Verif.Props.Cfrac

/-!
# Property C190: the factoring functions compared with each other

`trial_division(n)` is the least number that any of the other functions can return.  `fermat` looks for the largest divisor below
the square root, and so returns the same number as `trial_division` for a few shapes of `n` only.  `lehman` returns the
same number as `trial_division`, its cofactor, or `n`.
-/

namespace Rosemary.Props

open Rosemary.Core Rosemary.Primality Rosemary.Factorization

theorem trialDivision_minFac (T : List Nat) (hT : IsPrimeTable T) (n : Nat) (hn : 2 ≤ n) : trialDivision T n = .ok n.minFac := by
  obtain ⟨d, h, hd, hdn, hmin⟩ := C38_trial_division T hT n hn
  rw [h, le_antisymm (hmin _ (Nat.minFac_prime (by omega)) (Nat.minFac_dvd n)) (Nat.minFac_le_of_dvd hd.two_le hdn)]

/-- C190: no factoring function returns a smaller number than `trial_division`, whatever the random numbers, the bounds and the
multiplier. -/
theorem C190_least (T : List Nat) (hT : IsPrimeTable T) (n : Nat) (hn : 4 ≤ n) : ∃ d : Nat, trialDivision T n = .ok d ∧
    (∃ e : Nat, lehman T n = .ok (e : Int) ∧ d ≤ e) ∧
    (∀ iterations a u, (∃ e : Nat, pollardRhoCall n iterations a u = .ok (some (e : Int)) ∧ d ≤ e) ∧
      ∃ e : Nat, pollardRhoBrentCall n a u = .ok (some (e : Int)) ∧ d ≤ e) ∧
    ∀ B k e, cfrac T (.ok B) n k = some (.ok (some e)) → (d : Int) ≤ e := by
  have key : ∀ e : Nat, e ∣ n → 1 < e → n.minFac ≤ e := fun e h h1 => Nat.minFac_le_of_dvd h1 h
  refine ⟨_, trialDivision_minFac T hT n (by omega), ?_, fun it a u => ?_, fun B k e h => ?_⟩
  · by_cases h4 : n = 4
    · subst h4
      exact ⟨4, (C136_lehman_violation T hT).2.2.1, key 4 (by norm_num) (by norm_num)⟩
    by_cases h6 : n = 6
    · subst h6
      exact ⟨6, (C136_lehman_violation T hT).2.2.2, key 6 (by norm_num) (by norm_num)⟩
    obtain ⟨d, h1, h2, h3, -⟩ := C136_lehman_partial T hT n (by omega) h4 h6
    exact ⟨d, h1, key d h2 h3⟩
  · obtain ⟨⟨d, h1, h2, h3⟩, ⟨e, h4, h5, h6⟩⟩ := C137_pollard_calls n hn a u it
    exact ⟨⟨d, h1, key d h2 h3⟩, e, h4, key e h5 h6⟩
  · obtain ⟨h1, h2, -⟩ := C120_cfrac_sound T hT B n (by omega) k e h
    obtain ⟨m, rfl⟩ := Int.eq_ofNat_of_zero_le (by omega : 0 ≤ e)
    have := key m (by exact_mod_cast h2) (by omega)
    exact_mod_cast this

/-- C190: `fermat` and `trial_division` return the same number exactly for primes, products of two different primes, and third and
fourth powers of primes (odd `n ≥ 5`, exact square root). -/
theorem C190_fermat (T : List Nat) (hT : IsPrimeTable T) (n : Nat) (hn : 5 ≤ n) (hodd : n % 2 = 1)
    (hs : n < 4503599761588224 ∨ 2 ^ 60 < n) :
    (∃ d : Nat, trialDivision T n = .ok d ∧ fermat n = .ok (d : Int)) ↔
      n.Prime ∨ (∃ p q, p.Prime ∧ q.Prime ∧ p < q ∧ n = p * q) ∨ ∃ p, p.Prime ∧ (n = p ^ 3 ∨ n = p ^ 4) := by
  rw [trialDivision_minFac T hT n (by omega)]
  obtain ⟨d, hd, h⟩ := C135_fermat_partial n hn hodd hs
  rw [hd]
  have hpp := Nat.minFac_prime (show n ≠ 1 by omega)
  have hpd := Nat.minFac_dvd n
  have hmin : ∀ e, e ∣ n → 1 < e → n.minFac ≤ e := fun e h h1 => Nat.minFac_le_of_dvd h1 h
  generalize n.minFac = p at hpp hpd hmin
  have e1 : (∃ d' : Nat, (Except.ok p : Except PyErr Nat) = .ok d' ∧ (Except.ok (d : Int) : Except PyErr Int) = .ok (d' : Int)) ↔ d = p := by
    constructor
    · rintro ⟨d', h1, h2⟩
      injection h1 with h1
      injection h2 with h2
      omega
    · rintro rfl
      exact ⟨_, rfl, rfl⟩
  rw [e1]
  have hp2 := hpp.two_le
  constructor
  · rintro rfl
    rcases h with ⟨h1, h2, h3, h4⟩ | ⟨rfl, -⟩
    · right
      obtain ⟨m, rfl⟩ := hpd
      have hm : d < m := by nlinarith
      by_cases hmp : m.Prime
      · exact Or.inl ⟨d, m, hpp, hmp, hm, rfl⟩
      right
      refine ⟨d, hpp, ?_⟩
      have hq := Nat.minFac_prime (show m ≠ 1 by omega)
      obtain ⟨r, hr⟩ := Nat.minFac_dvd m
      have hqq : m.minFac ^ 2 ≤ m := Nat.minFac_sq_le_self (by omega) hmp
      have hqd : m.minFac = d := by
        refine le_antisymm (h4 _ ((Nat.minFac_dvd m).mul_left d) (by nlinarith)) (hmin _ ((Nat.minFac_dvd m).mul_left d) hq.one_lt)
      rw [hqd] at hr hqq
      subst hr
      have hr1 : d ≤ r := by nlinarith
      have hr0 : d * d ≤ d * (d * r) := by nlinarith
      have hr2 : r ≤ d * d := by
        by_contra hlt
        have := h4 (d * d) ⟨r, by ring⟩ (by
          have : d * d * (d * d) < d * d * r := Nat.mul_lt_mul_of_pos_left (by omega) (by nlinarith)
          nlinarith)
        nlinarith
      by_cases hrd : r = d * d
      · right; subst hrd; ring
      left
      have hle := h4 r ⟨d * d, by ring⟩ (by
        have : r * r < d * d * r := Nat.mul_lt_mul_of_pos_right (by omega) (by omega)
        nlinarith)
      have : r = d := by omega
      subst this; ring
    · exact Or.inl hpp
  · have fin : ∀ e, e ∣ n → 1 < e → e * e < n → (∀ f, f ∣ n → f * f < n → f ≤ e) → n ≠ e * e → d = e := by
      intro e he h1 h2 h3 _
      rcases h with ⟨g1, g2, g3, g4⟩ | ⟨rfl, hp | ⟨q, hq, rfl⟩⟩
      · exact le_antisymm (h3 d g2 g3) (g4 e he h2)
      · rcases (Nat.dvd_prime hp).1 he with rfl | rfl
        · omega
        · nlinarith
      · have := (Nat.dvd_prime_pow hq).1 (show e ∣ q ^ 2 by rw [pow_two]; exact he)
        obtain ⟨k, hk, rfl⟩ := this
        interval_cases k
        · simp at h1
        · simp at h2
        · nlinarith
    have pd : ∀ q, q.Prime → q ∣ n → (∀ r, r.Prime → r ∣ n → q ≤ r) → q = p := fun q hq h1 h2 =>
      le_antisymm (h2 p hpp hpd) (hmin q h1 hq.one_lt)
    have pw : ∀ q k, q.Prime → n = q ^ k → 3 ≤ k → k ≤ 4 → d = p := by
      rintro q k hq rfl hk1 hk2
      have hqn : q ∣ q ^ k := dvd_pow_self q (by omega)
      have := pd q hq hqn (fun r hr h => ((Nat.prime_dvd_prime_iff_eq hr hq).1 (hr.dvd_of_dvd_pow h)).ge)
      subst this
      have hlt : ∀ i, i * 2 < k ↔ q ^ i * q ^ i < q ^ k := fun i => by
        rw [← pow_add, Nat.pow_lt_pow_iff_right hq.one_lt]; omega
      refine fin q hqn hq.one_lt (by simpa using (hlt 1).1 (by omega)) (fun f hf h2 => ?_) (fun he => ?_)
      · obtain ⟨i, hi, rfl⟩ := (Nat.dvd_prime_pow hq).1 hf
        have := (hlt i).2 h2
        calc q ^ i ≤ q ^ 1 := Nat.pow_le_pow_right hq.pos (by omega)
          _ = q := pow_one q
      · have : q ^ k = q ^ 2 := by rw [he]; ring
        have := Nat.pow_right_injective hq.two_le this
        omega
    rintro (hp | ⟨q, r, hq, hr, hqr, hn'⟩ | ⟨q, hq, h3 | h3⟩)
    · have : n = p := ((Nat.dvd_prime hp).1 hpd).elim (fun h => by omega) (fun h => h.symm)
      rcases h with ⟨g1, g2, g3, -⟩ | ⟨g, -⟩
      · rcases (Nat.dvd_prime hp).1 g2 with rfl | rfl
        · omega
        · nlinarith
      · omega
    · subst hn'
      have hqp := pd q hq ⟨r, rfl⟩ (fun s hs h => by
        rcases (Nat.Prime.dvd_mul hs).1 h with h | h
        · exact ((Nat.prime_dvd_prime_iff_eq hs hq).1 h).ge
        · rw [(Nat.prime_dvd_prime_iff_eq hs hr).1 h]; omega)
      subst hqp
      have hq2 := hq.two_le
      refine fin q ⟨r, rfl⟩ hq.one_lt (by nlinarith) (fun f hf h2 => ?_) (fun he => by nlinarith)
      by_contra hlt
      have hnd : ¬ r ∣ f := fun hd => by have := Nat.le_of_dvd (by omega) hd; nlinarith
      have : f ∣ q := (Nat.Coprime.dvd_of_dvd_mul_right ((Nat.Prime.coprime_iff_not_dvd hr).2 hnd).symm hf)
      exact hlt (Nat.le_of_dvd hq.pos this)
    · exact pw q 3 hq h3 (by omega) (by omega)
    · exact pw q 4 hq h3 (by omega) (by omega)

/-- C190: `lehman(n)` is `trial_division(n)`, its cofactor, or `n`; it is `trial_division(n)` if that is at most the cube root of `n`. -/
theorem C190_lehman (T : List Nat) (hT : IsPrimeTable T) (n : Nat) (hn : 2 ≤ n) : ∃ d e : Nat, trialDivision T n = .ok d ∧
    lehman T n = .ok (e : Int) ∧ (e = d ∨ e * d = n ∨ e = n) ∧ (d ^ 3 ≤ n → e = d) := by
  obtain ⟨B, -, hB1, hB2, h⟩ := lehman_eq T hT n hn
  have hpp := Nat.minFac_prime (show n ≠ 1 by omega)
  by_cases hm : n.minFac ≤ B
  · rw [if_pos hm] at h
    exact ⟨_, _, trialDivision_minFac T hT n hn, h, Or.inl rfl, fun _ => rfl⟩
  obtain ⟨e, he, hed, he1⟩ : ∃ e : Nat, lehman T n = .ok (e : Int) ∧ e ∣ n ∧ 1 < e := by
    by_cases h4 : n = 4
    · subst h4; exact ⟨4, (C136_lehman_violation T hT).2.2.1, dvd_rfl, by norm_num⟩
    by_cases h6 : n = 6
    · subst h6; exact ⟨6, (C136_lehman_violation T hT).2.2.2, dvd_rfl, by norm_num⟩
    obtain ⟨d, h1, h2, h3, -⟩ := C136_lehman_partial T hT n hn h4 h6
    exact ⟨d, h1, h2, h3⟩
  refine ⟨_, e, trialDivision_minFac T hT n hn, he, ?_, fun h3 => ?_⟩
  · obtain ⟨m, hnm⟩ := Nat.minFac_dvd n
    have hmp : m = 1 ∨ m.Prime := by
      by_contra hc
      rw [not_or] at hc
      have hm0 : 0 < m := Nat.pos_of_ne_zero (by rintro rfl; omega)
      have hq := Nat.minFac_prime hc.1
      have hle : n.minFac ≤ m.minFac := Nat.minFac_le_of_dvd hq.two_le ((Nat.minFac_dvd m).trans ⟨n.minFac, by rw [mul_comm]; exact hnm⟩)
      have hqq : m.minFac ^ 2 ≤ m := Nat.minFac_sq_le_self hm0 hc.2
      have : (B + 1) ^ 3 ≤ n.minFac * m := by
        calc (B + 1) ^ 3 = (B + 1) * (B + 1) ^ 2 := by ring
          _ ≤ n.minFac * m.minFac ^ 2 := Nat.mul_le_mul (by omega) (Nat.pow_le_pow_left (by omega) 2)
          _ ≤ n.minFac * m := Nat.mul_le_mul le_rfl hqq
      omega
    generalize n.minFac = p at hpp hnm
    subst hnm
    obtain ⟨a, b, ha, hb, rfl⟩ := (Nat.dvd_mul).1 hed
    have hb' : b = 1 ∨ b = m := by
      rcases hmp with rfl | hmp
      · exact Or.inl (Nat.dvd_one.1 hb)
      · exact (Nat.dvd_prime hmp).1 hb
    rcases (Nat.dvd_prime hpp).1 ha with rfl | rfl <;> rcases hb' with rfl | rfl
    · omega
    · right; left; ring
    · left; ring
    · right; right; rfl
  · exact absurd (by by_contra hc; exact absurd (Nat.pow_le_pow_left (show B + 1 ≤ n.minFac by omega) 3) (by omega)) hm

/-- C190: for even numbers `fermat` returns 2 like `trial_division`; for 3 it returns 1. -/
theorem C190_fermat_small (T : List Nat) (hT : IsPrimeTable T) : (∀ n : Nat, 2 ≤ n → n % 2 = 0 →
    trialDivision T n = .ok 2 ∧ fermat n = .ok 2) ∧ trialDivision T 3 = .ok 3 ∧ fermat 3 = .ok 1 := by
  refine ⟨fun n hn h => ⟨?_, C135_fermat_even n h⟩, ?_, C135_fermat_three⟩
  · rw [trialDivision_minFac T hT n hn, (Nat.minFac_eq_two_iff n).2 (Nat.dvd_of_mod_eq_zero h)]
  · rw [trialDivision_minFac T hT 3 (by norm_num), Nat.Prime.minFac_eq (by norm_num)]

/-- C190: all three answers of `lehman` occur. -/
theorem C190_lehman_cases (T : List Nat) (hT : IsPrimeTable T) : (trialDivision T 105 = .ok 3 ∧ lehman T 105 = .ok 3) ∧
    (trialDivision T 35 = .ok 5 ∧ lehman T 35 = .ok 7) ∧ (trialDivision T 71441 = .ok 199 ∧ lehman T 71441 = .ok 71441) := by
  refine ⟨⟨?_, ?_⟩, ⟨?_, ?_⟩, ?_, (C136_lehman_violation T hT).1⟩
  · rw [trialDivision_minFac T hT 105 (by norm_num)]; norm_num
  · obtain ⟨d, e, h1, h2, -, h3⟩ := C190_lehman T hT 105 (by norm_num)
    rw [trialDivision_minFac T hT 105 (by norm_num), show Nat.minFac 105 = 3 by norm_num] at h1
    injection h1 with h1
    subst h1
    rw [h2, h3 (by norm_num)]; rfl
  · rw [trialDivision_minFac T hT 35 (by norm_num)]; norm_num
  · obtain ⟨B, hB, -, -, h⟩ := lehman_eq T hT 35 (by norm_num)
    have hB' : integerNthRoot 3 (35 : Nat) = .ok 3 := by decide +kernel
    rw [hB] at hB'
    cases hB'
    rw [h, if_neg (by norm_num)]
    decide +kernel
  · rw [trialDivision_minFac T hT 71441 (by norm_num)]; norm_num

/-- `105 = 3 * 5 * 7`: `fermat` finds 7; `81 = 3 ^ 4`: it finds 3. -/
example (T : List Nat) (hT : IsPrimeTable T) : (¬ ∃ d : Nat, trialDivision T 105 = .ok d ∧ fermat 105 = .ok (d : Int)) ∧
    ∃ d : Nat, trialDivision T 81 = .ok d ∧ fermat 81 = .ok (d : Int) := by
  constructor
  · rintro ⟨d, h1, h2⟩
    rw [trialDivision_minFac T hT 105 (by norm_num), show Nat.minFac 105 = 3 by norm_num] at h1
    rw [show fermat 105 = .ok 7 by decide +kernel] at h2
    injection h1 with h1
    injection h2 with h2
    omega
  · exact (C190_fermat T hT 81 (by norm_num) (by norm_num) (by norm_num)).2 (Or.inr (Or.inr ⟨3, by norm_num, by norm_num⟩))

end Rosemary.Props
