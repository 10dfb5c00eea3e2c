import Verif.Lemmas.Factor
import Verif.Lemmas.Divisors
import Verif.Lemmas.Z2
import Verif.Spec.Factorization
import Verif.Props.Primality

/-!
# Properties C27, C28, C36, C37, C38: factoring and divisors
-/

namespace Rosemary.Props

open Rosemary Rosemary.Core Rosemary.Primality Rosemary.Factorization

/-! ## C38 (first, because C27 uses it): only genuine divisors are returned -/

/-- `trial_division(n, bound)` returns the least prime factor if it does not exceed the bound,
and `n` otherwise. -/
theorem C38_trial_division_bound (T : List Nat) (hT : IsPrimeTable T) (n B : Nat) (hn : 2 ≤ n) :
    ∃ d, trialDivisionBound T n B = .ok d ∧
      ((d.Prime ∧ d ∣ n ∧ d ≤ B ∧ ∀ q, q.Prime → q ∣ n → d ≤ q) ∨
       (d = n ∧ ∀ q, q.Prime → q ∣ n → B < q)) := by
  refine ⟨_, trialDivisionBound_spec T hT n B hn, ?_⟩
  have hp := Nat.minFac_prime (show n ≠ 1 by omega)
  split
  · rename_i h
    left
    exact ⟨hp, Nat.minFac_dvd n, h, fun q hq hd => Nat.minFac_le_of_dvd hq.two_le hd⟩
  · rename_i h
    right
    refine ⟨rfl, fun q hq hd => ?_⟩
    have := Nat.minFac_le_of_dvd hq.two_le hd
    omega

/-- `trial_division(n)` returns the least prime factor of `n`. -/
theorem C38_trial_division (T : List Nat) (hT : IsPrimeTable T) (n : Nat) (hn : 2 ≤ n) :
    ∃ d : Nat, trialDivision T n = .ok d ∧ d.Prime ∧ d ∣ n ∧ ∀ q, q.Prime → q ∣ n → d ≤ q := by
  obtain ⟨B, hB, h⟩ := trialDivision_spec T hT n hn
  refine ⟨n.minFac, ?_, Nat.minFac_prime (by omega), Nat.minFac_dvd n,
    fun _ hq hd => Nat.minFac_le_of_dvd hq.two_le hd⟩
  rw [h]
  split
  · rfl
  · rename_i hlt
    have hp : n.Prime := by
      by_contra hc
      have h1 := Nat.minFac_sq_le_self (by omega) hc
      have h2 : n.minFac ≤ n.sqrt := Nat.le_sqrt'.2 h1
      omega
    rw [hp.minFac_eq]

theorem fermatLoop_dvd (n a k : Nat) (ha : n < a * a) (hn : 1 ≤ n) :
    ∃ d : Nat, fermatLoop n a k = .ok (d : Int) ∧ d ∣ n ∧
      (d = 1 → n = 1 ∨ ∃ i < k, n + 1 = 2 * (a + i)) := by
  induction k generalizing a with
  | zero => exact ⟨n, rfl, dvd_rfl, fun h => Or.inl h⟩
  | succ k ih =>
    simp only [fermatLoop]
    have hc : (a : Int) * a - n = ((a * a - n : Nat) : Int) := by push_cast [ha.le]; rfl
    rw [hc]
    obtain ⟨b, hb, -, -, -⟩ := integerSqrt_nat (a * a - n)
    rw [hb]
    simp only
    split
    · rename_i h
      have hbb : b * b = a * a - n := by exact_mod_cast h
      have hba : b < a := by nlinarith [Nat.sub_lt_self (show 0 < n by omega) ha.le]
      have hmul : n = (a - b) * (a + b) := by
        have h4 : n = a * a - b * b := by omega
        rw [h4, Nat.mul_self_sub_mul_self_eq, mul_comm]
      refine ⟨a - b, by push_cast [hba.le]; rfl, ⟨a + b, hmul⟩, ?_⟩
      intro h1
      right
      refine ⟨0, by omega, ?_⟩
      rw [h1, one_mul] at hmul
      omega
    · obtain ⟨d, h1, h2, h3⟩ := ih (a + 1) (by nlinarith)
      refine ⟨d, h1, h2, fun h => ?_⟩
      rcases h3 h with h | ⟨i, hi, h⟩
      · exact Or.inl h
      · exact Or.inr ⟨i + 1, by omega, by omega⟩

/-- `fermat(n)` returns a divisor of `n`, and never the divisor 1 when `n > 3`. -/
theorem C38_fermat (n : Nat) (hn : 1 ≤ n) :
    ∃ d : Nat, fermat n = .ok (d : Int) ∧ d ∣ n ∧ (3 < n → 1 < d) := by
  unfold fermat
  split
  · rename_i h; exact ⟨2, rfl, Nat.dvd_of_mod_eq_zero h, fun _ => by omega⟩
  · obtain ⟨s, hs, h1, -, -⟩ := integerSqrt_nat n
    rw [hs]
    simp only
    obtain ⟨d, h2, h3, h4⟩ := fermatLoop_dvd n (s + 1) ((n + 9) / 6 + 1 - (s + 1)) (by
      have h5 := Nat.lt_succ_sqrt n
      have h6 : (n.sqrt + 1) * (n.sqrt + 1) ≤ (s + 1) * (s + 1) := Nat.mul_le_mul (by omega) (by omega)
      exact lt_of_lt_of_le h5 h6) hn
    refine ⟨d, h2, h3, fun h => ?_⟩
    have h0 : d ≠ 0 := by rintro rfl; rw [zero_dvd_iff] at h3; omega
    by_contra hc
    rcases h4 (by omega) with h5 | ⟨i, hi, h5⟩
    · omega
    · omega

theorem gcd_dvd_nat (x : Int) (n : Nat) : ∃ d : Nat, Core.gcd x n = (d : Int) ∧ d ∣ n := by
  rw [gcd_eq]
  refine ⟨_, rfl, ?_⟩
  have := Int.gcd_dvd_right (a := x) (b := n)
  exact_mod_cast this

theorem lehmanInner_dvd (n fkn ub m : Nat) (hm : 0 < m) (a : Nat) :
    (∃ d : Nat, lehmanInner n fkn ub m hm a = .ok (some (d : Int)) ∧ d ∣ n) ∨
    lehmanInner n fkn ub m hm a = .ok none := by
  fun_induction lehmanInner n fkn ub m hm a with
  | case1 a h e c he =>
    obtain ⟨b, hb, -⟩ := integerSqrt_nat e
    rw [hb] at he; cases he
  | case2 a h e b hb hbb =>
    left
    obtain ⟨d, h1, h2⟩ := gcd_dvd_nat (a + b) n
    exact ⟨d, by rw [h1], h2⟩
  | case3 a h e b hb hbb ih => exact ih
  | case4 a h => right; rfl

theorem lehmanLoop_dvd (n bound k j : Nat) : ∃ d : Nat, lehmanLoop n bound k j = .ok (d : Int) ∧ d ∣ n := by
  induction j generalizing k with
  | zero => exact ⟨n, rfl, dvd_rfl⟩
  | succ j ih =>
    simp only [lehmanLoop]
    obtain ⟨a, ha, -⟩ := integerSqrt_nat (4 * k * n)
    rw [ha]
    simp only
    rcases lehmanInner_dvd n (4 * k * n) (4 * k * n + bound ^ 2) (if k % 2 = 0 then 2 else 4)
      (by split <;> omega) (lehmanAlign (if k % 2 = 0 then 2 else 4)
        ((if k % 2 = 0 then 1 else k + n) % (if k % 2 = 0 then 2 else 4))
        (if k % 2 = 0 then 2 else 4) a) with ⟨d, h1, h2⟩ | h1
    · rw [h1]; exact ⟨d, rfl, h2⟩
    · rw [h1]; exact ih (k + 1)

/-- `lehman(n)` returns a divisor of `n`. -/
theorem C38_lehman (T : List Nat) (hT : IsPrimeTable T) (n : Nat) (hn : 2 ≤ n) :
    ∃ d : Nat, lehman T n = .ok (d : Int) ∧ d ∣ n := by
  unfold lehman
  obtain ⟨r, hr, -⟩ := C08_integer_nth_root_partial 3 n (by norm_num) (by omega) (by norm_num)
  rw [hr]
  simp only
  rw [trialDivisionBound_spec T hT n r hn]
  simp only
  have hd : (if n.minFac ≤ r then n.minFac else n) ∣ n := by
    split
    · exact Nat.minFac_dvd n
    · exact dvd_rfl
  generalize (if n.minFac ≤ r then n.minFac else n) = d at hd ⊢
  split
  · exact ⟨_, rfl, hd⟩
  · exact lehmanLoop_dvd n r 1 r

theorem pMinusOneLoop_dvd (n : Nat) (c : Int) (count : Nat) (l : List (Nat × Nat)) :
    ∃ d : Nat, pMinusOneLoop n c count l = d ∧ d ∣ n := by
  induction l generalizing c count with
  | nil => exact gcd_dvd_nat _ _
  | cons a l ih =>
    obtain ⟨pk, p⟩ := a
    simp only [pMinusOneLoop]
    split
    · split
      · exact gcd_dvd_nat _ _
      · exact ih _ _
    · exact ih _ _

/-- `pollard_p_minus_1(n)` returns a divisor of `n`, whatever the list of prime powers. -/
theorem C38_pollard_p_minus_1 (powList : List (Nat × Nat)) (n : Nat) :
    ∃ d : Nat, pollardPMinusOne powList n = d ∧ d ∣ n := pMinusOneLoop_dvd _ _ _ _

theorem rhoLoop_dvd (n : Nat) (hn : 2 ≤ n) (a u v prod : Int) (k j : Nat) :
    ∃ d : Nat, rhoLoop n a u v prod k j = d ∧ d ∣ n ∧ 1 < d := by
  induction j generalizing u v prod k with
  | zero => exact ⟨n, rfl, dvd_rfl, by omega⟩
  | succ j ih =>
    simp only [rhoLoop]
    split
    · split
      · rename_i h
        obtain ⟨d, h1, h2⟩ := gcd_dvd_nat ((prod * ((u * u + a).fmod n -
          (((v * v + a).fmod n * (v * v + a).fmod n + a).fmod n))).fmod n) n
        rw [h1] at h ⊢
        exact ⟨d, rfl, h2, by omega⟩
      · exact ih _ _ _ _
    · exact ih _ _ _ _

/-- `pollard_rho(n, iterations)`: whatever the random choices, a returned value is a divisor of
`n` greater than 1; with a bound on the iterations the call always returns. -/
theorem C38_pollard_rho (n : Nat) (hn : 2 ≤ n) (a u : Int) (iterations : Option Nat) :
    (∀ r, pollardRho n a u iterations = some r → ∃ d : Nat, r = d ∧ d ∣ n ∧ 1 < d) ∧
    (iterations.isSome → (pollardRho n a u iterations).isSome) := by
  refine ⟨?_, ?_⟩
  · intro r h
    unfold pollardRho at h
    split at h
    · cases h; exact rhoLoop_dvd n hn a u u 1 0 _
    · refine rhoLoopInf.partial_correctness n a
        (fun _ _ _ _ r => ∃ d : Nat, r = d ∧ d ∣ n ∧ 1 < d) ?_ u u 1 0 r h
      intro f ih u v prod k r h
      dsimp only at h
      split at h
      · split at h
        · rename_i h3
          cases h
          obtain ⟨d, h1, h2⟩ := gcd_dvd_nat ((prod * ((u * u + a).fmod n -
            (((v * v + a).fmod n * (v * v + a).fmod n + a).fmod n))).fmod n) n
          rw [h1] at h3 ⊢
          exact ⟨d, rfl, h2, by omega⟩
        · exact ih _ _ _ _ _ h
      · exact ih _ _ _ _ _ h
  · intro h
    obtain ⟨it, rfl⟩ := Option.isSome_iff_exists.1 h
    rfl

theorem brentInner_gcd (n c x : Int) (r k : Nat) (y prod : Int) :
    ∃ z, (brentInner n c x r k y prod).2.2.2 = Core.gcd z n := by
  fun_induction brentInner n c x r k y prod with
  | case1 => exact ⟨_, rfl⟩
  | case2 k y prod yp g h ih => exact ih

/-- `pollard_rho_brent(n)`: whatever the random choices, a returned value is a divisor of `n`
greater than 1. -/
theorem C38_pollard_rho_brent (n : Nat) (c y r : Int) (h : pollardRhoBrent n c y = some r) :
    ∃ d : Nat, r = d ∧ d ∣ n ∧ 1 < d := by
  unfold pollardRhoBrent at h
  cases ho : brentOuter n c 1 y 1 with
  | none => simp [ho] at h
  | some t =>
    obtain ⟨x, ys, g⟩ := t
    rw [ho] at h
    simp only [Option.bind_eq_bind, Option.bind_some] at h
    have hg : ∃ d : Nat, g = d ∧ d ∣ n ∧ 1 < d := by
      refine brentOuter.partial_correctness n c
        (fun _ _ _ t => ∃ d : Nat, t.2.2 = d ∧ d ∣ n ∧ 1 < d) ?_ 1 y 1 (x, ys, g) ho
      intro f ih r y prod t h
      dsimp only at h
      split at h
      · rename_i h3
        cases h
        obtain ⟨z, hz⟩ := brentInner_gcd n c y r 0 (brentAdvance n c r y) prod
        obtain ⟨d, h1, h2⟩ := gcd_dvd_nat z n
        simp only [hz, h1] at h3 ⊢
        exact ⟨d, rfl, h2, by omega⟩
      · exact ih _ _ _ _ h
    split at h
    · refine brentBacktrack.partial_correctness n c x
        (fun _ r => ∃ d : Nat, r = d ∧ d ∣ n ∧ 1 < d) ?_ ys r h
      intro f ih ys r h
      dsimp only at h
      split at h
      · rename_i h3
        cases h
        obtain ⟨d, h1, h2⟩ := gcd_dvd_nat (x - (ys * ys + c).fmod n) n
        rw [h1] at h3 ⊢
        exact ⟨d, rfl, h2, by omega⟩
      · exact ih _ _ h
    · cases h; exact hg

example : fermat 8051 = .ok 83 := by decide +kernel

example : lehman [2, 3, 5, 7] 8051 = .ok 97 := by decide +kernel

example : pollardRho 91 1 2 (some 1) = some 7 ∧ pollardPMinusOne [(2, 2), (3, 3), (4, 2)] 161 = 7 := by
  decide +kernel

/-- The divisor returned by `fermat` and `lehman` may be trivial for a composite number. -/
example : fermat 9 = .ok 9 := by decide +kernel

example : lehman [2, 3, 5, 7] 6 = .ok 6 := by decide +kernel

/-! ## C27 -/

/-- The splitting routine used by `factor`, for arbitrary random choices. -/
def rhoSplitter (rnd : Nat → Nat → Int × Int) (i m : Nat) : Option Nat :=
  (pollardRhoBrent m (rnd i m).1 (rnd i m).2).map Int.toNat

theorem rhoSplitter_good (rnd : Nat → Nat → Int × Int) : GoodSplitter (rhoSplitter rnd) := by
  intro i m d _ h
  unfold rhoSplitter at h
  rw [Option.map_eq_some_iff] at h
  obtain ⟨r, hr, rfl⟩ := h
  obtain ⟨d, rfl, h1, h2⟩ := C38_pollard_rho_brent m _ _ r hr
  exact ⟨by simpa using h2, by simpa using h1⟩

theorem bigFactors_one (fct : Nat → Nat → Option Nat) (i : Nat) (fac : List (Int × Nat)) :
    bigFactors fct i 1 fac = some fac := by
  rw [bigFactors, if_neg (by omega)]

theorem init_inv (Q : Nat → Prop) (n : Int) :
    FacInv Q (decide (n < 0)) (if n < 0 then [(-1, 1)] else []) := by
  split
  · rename_i h
    refine ⟨by simp, by simp, ?_, by simp⟩
    intro pe hpe
    rw [List.mem_singleton] at hpe
    exact Or.inl ⟨hpe, by simpa using h⟩
  · rename_i h
    exact ⟨by simp, by simp, by simp, by simp [h]⟩

theorem prodI_init (n : Int) (hn : n ≠ 0) :
    prodI (if n < 0 then [(-1, 1)] else []) * (n.natAbs : Int) = n := by
  split
  · show (-1 : Int) ^ 1 * 1 * (n.natAbs : Int) = n
    rw [pow_one]; omega
  · show (1 : Int) * (n.natAbs : Int) = n
    omega

theorem sorted_spec {Q : Nat → Prop} {n : Int} {l : List (Int × Nat)}
    (h : FacInv Q (decide (n < 0)) l) (hp : prodI l = n) :
    ((pySort l pairLe).map Prod.fst).Pairwise (· < ·) ∧
    (∀ pe ∈ pySort l pairLe, 1 ≤ pe.2) ∧
    (((-1, 1) : Int × Nat) ∈ pySort l pairLe ↔ n < 0) ∧
    (∀ pe ∈ pySort l pairLe, pe = (-1, 1) ∨ ∃ p : Nat, Q p ∧ pe.1 = p) ∧
    ((pySort l pairLe).map (fun pe => pe.1 ^ pe.2)).prod = n := by
  have hperm := pySort_perm l pairLe
  refine ⟨sorted_keys l h.nodup, ?_, ?_, ?_, ?_⟩
  · intro pe hpe; exact h.pos pe (hperm.mem_iff.1 hpe)
  · rw [hperm.mem_iff]
    constructor
    · intro hm
      rcases h.keys _ hm with ⟨_, h⟩ | ⟨p, _, h⟩
      · simpa using h
      · simp only at h; omega
    · intro h0; exact h.sign (by simpa using h0)
  · intro pe hpe
    rcases h.keys pe (hperm.mem_iff.1 hpe) with ⟨h, _⟩ | h
    · exact Or.inl h
    · exact Or.inr h
  · rw [(hperm.map _).prod_eq]; exact hp

/-- `factor(n)` for `n` with at most one prime factor above the last prime `l` of the table: the call terminates
with the prime factorization, whatever the splitting routine does. -/
theorem C27_factor_one_large_partial (T : List Nat) (hT : IsPrimeTable T) (l : Nat)
    (hl : T.getLast? = some l) (fct : Nat → Nat → Option Nat) (n : Int) (hn : n ≠ 0)
    (hsmall : OneLarge l n.natAbs) :
    ∃ L, factor T fct n = some (.ok L) ∧ IsSignedFactorization L n := by
  obtain ⟨l', hl', h7, hmem⟩ := hT.last
  rw [hl] at hl'; cases hl'
  unfold factor
  rw [if_neg hn]
  obtain ⟨a1, a2, a3, a4, a5⟩ := smallFactors_spec T 0 l n.natAbs _ hT.sorted
    (fun p => by rw [hmem]; constructor
                 · rintro ⟨h1, h2⟩; exact ⟨h1, h2, h1.pos⟩
                 · rintro ⟨h1, h2, _⟩; exact ⟨h1, h2⟩)
    (by omega) (fun q hq h0 => absurd hq.pos (by omega)) (init_inv Nat.Prime n)
  simp only
  set r := smallFactors T n.natAbs (if n < 0 then [(-1, 1)] else []) with hr
  have key : ∃ fac, bigFactors fct 0 r.1 r.2 = some fac ∧ FacInv Nat.Prime (decide (n < 0)) fac ∧
      prodI fac = n := by
    rcases Nat.lt_or_ge 1 r.1 with h1 | h1
    · have hp : r.1.Prime := by
        by_contra hc
        have hq := Nat.minFac_prime (show r.1 ≠ 1 by omega)
        obtain ⟨m, hm⟩ := Nat.minFac_dvd r.1
        have hm1 : m ≠ 1 := by
          rintro rfl
          rw [mul_one] at hm
          rw [hm] at hc
          exact hc hq
        have hq2 := Nat.minFac_prime hm1
        have hgt : ∀ q : Nat, q.Prime → q ∣ r.1 → l < q := fun q hq hd => by
          by_contra h
          exact a5 q hq (by omega) hd
        have hdn : (r.1 : Int) ∣ n := by
          rw [← prodI_init n hn, ← a3]
          exact dvd_mul_left _ _
        refine hsmall _ _ hq hq2 (hgt _ hq (Nat.minFac_dvd _)) (hgt _ hq2 ((Nat.minFac_dvd m).trans ⟨r.1.minFac, by
          rw [mul_comm]; exact hm⟩)) ?_
        refine (Nat.mul_dvd_mul_left _ (Nat.minFac_dvd m)).trans ?_
        rw [← hm]
        exact Int.natCast_dvd.1 hdn
      refine ⟨_, by rw [bigFactors, if_pos h1, if_pos (isProbablePrime_prime _ hp), bigFactors_one],
        a1.bump _ hp, ?_⟩
      rw [prodI_bump, pow_one, mul_comm, a3, prodI_init n hn]
    · have e : r.1 = 1 := by omega
      refine ⟨_, by rw [e, bigFactors_one], a1, ?_⟩
      rw [e] at a3
      rw [Nat.cast_one, mul_one] at a3
      rw [a3, prodI_init n hn]
  obtain ⟨fac, h1, h2, h3⟩ := key
  rw [h1]
  obtain ⟨s1, s2, s3, s4, s5⟩ := sorted_spec h2 h3
  exact ⟨_, rfl, s1, s2, s3, s4, s5⟩

theorem oneLarge_of_lt {l n : Nat} (hn : 1 ≤ n) (h : n < (l + 1) ^ 2) : OneLarge l n := by
  intro p q _ _ hp hq hd
  have h1 := Nat.le_of_dvd hn hd
  have h2 : (l + 1) * (l + 1) ≤ p * q := Nat.mul_le_mul (by omega) (by omega)
  rw [pow_two] at h
  omega

theorem _root_.Rosemary.OneLarge.of_dvd {l m n : Nat} (h : OneLarge l n) (hd : m ∣ n) : OneLarge l m :=
  fun p q hp hq h1 h2 h3 => h p q hp hq h1 h2 (h3.trans hd)

/-- `factor(n)` for `0 < |n| < (l + 1)²`, `l` the last prime of the table. -/
theorem C27_factor_small_partial (T : List Nat) (hT : IsPrimeTable T) (l : Nat)
    (hl : T.getLast? = some l) (fct : Nat → Nat → Option Nat) (n : Int) (hn : n ≠ 0)
    (hsmall : n.natAbs < (l + 1) ^ 2) :
    ∃ L, factor T fct n = some (.ok L) ∧ IsSignedFactorization L n :=
  C27_factor_one_large_partial T hT l hl fct n hn (oneLarge_of_lt (by omega) hsmall)

/-- With the real table: every `n ≠ 0` with at most one prime factor above 999983. -/
theorem C27_factor_real_one_large_partial (fct : Nat → Nat → Option Nat) (n : Int) (hn : n ≠ 0)
    (hsmall : OneLarge 999983 n.natAbs) :
    ∃ L, factor primeList fct n = some (.ok L) ∧ IsSignedFactorization L n := by
  obtain ⟨l, hl, h1, h2⟩ := primeList_isPrimeTable.last
  have h3 : (999983 : Nat) ∈ primeList := by
    simp only [primeList, List.mem_filter, List.mem_range, decide_eq_true_eq]
    exact ⟨by norm_num, by norm_num⟩
  have h4 := ((h2 _).1 h3).2
  exact C27_factor_one_large_partial primeList primeList_isPrimeTable l hl fct n hn
    (fun p q hp hq hlp hlq => hsmall p q hp hq (by omega) (by omega))

/-- The bound instantiated with the real table: every `n` with `0 < |n| < 999984²`. -/
theorem C27_factor_real_partial (fct : Nat → Nat → Option Nat) (n : Int) (hn : n ≠ 0)
    (hsmall : n.natAbs < 999984 ^ 2) :
    ∃ L, factor primeList fct n = some (.ok L) ∧ IsSignedFactorization L n :=
  C27_factor_real_one_large_partial fct n hn (oneLarge_of_lt (by omega) hsmall)

/-- `factor(n)` in general, with `pollard_rho_brent` under arbitrary random choices: if the
call returns, the result has strictly increasing keys, positive exponents, the right product
and sign, and every key is a prime or a strong probable prime to the bases 2..18 all of whose prime
factors exceed the table. Missing from the property: primality of those keys (false in
general, see `C27_factor_violation`) and termination. -/
theorem C27_factor_partial (T : List Nat) (hT : IsPrimeTable T) (l : Nat) (hl : T.getLast? = some l)
    (rnd : Nat → Nat → Int × Int) (n : Int) (hn : n ≠ 0) (r : Except PyErr (List (Int × Nat)))
    (h : factor T (rhoSplitter rnd) n = some r) :
    ∃ L, r = .ok L ∧ (L.map Prod.fst).Pairwise (· < ·) ∧ (∀ pe ∈ L, 1 ≤ pe.2) ∧
      (((-1, 1) : Int × Nat) ∈ L ↔ n < 0) ∧
      (∀ pe ∈ L, pe = (-1, 1) ∨ ∃ p : Nat, pe.1 = p ∧
        (p.Prime ∨ (isProbablePrime p = true ∧ ∀ q, q.Prime → q ∣ p → l < q))) ∧
      (L.map (fun pe => pe.1 ^ pe.2)).prod = n := by
  obtain ⟨l', hl', h7, hmem⟩ := hT.last
  rw [hl] at hl'; cases hl'
  unfold factor at h
  rw [if_neg hn] at h
  obtain ⟨a1, a2, a3, a4, a5⟩ := smallFactors_spec T 0 l n.natAbs _ hT.sorted
    (fun p => by rw [hmem]; constructor
                 · rintro ⟨h1, h2⟩; exact ⟨h1, h2, h1.pos⟩
                 · rintro ⟨h1, h2, _⟩; exact ⟨h1, h2⟩)
    (by omega) (fun q hq h0 => absurd hq.pos (by omega)) (init_inv Nat.Prime n)
  simp only at h
  set s := smallFactors T n.natAbs (if n < 0 then [(-1, 1)] else []) with hs
  cases hb : bigFactors (rhoSplitter rnd) 0 s.1 s.2 with
  | none => rw [hb] at h; cases h
  | some fac =>
    rw [hb] at h
    cases h
    have a1' : FacInv (Accepted l) (decide (n < 0)) s.2 :=
      ⟨a1.nodup, a1.pos, fun pe hpe => (a1.keys pe hpe).imp_right
        fun ⟨p, hp, e⟩ => ⟨p, Or.inl hp, e⟩, a1.sign⟩
    obtain ⟨b1, b2⟩ := bigFactors_spec _ (rhoSplitter_good rnd) l 0 s.1 s.2 fac hb a2
      (fun q hq hd => by
        by_contra hc
        exact a5 q hq (by omega) hd) a1'
    rw [a3, prodI_init n hn] at b2
    obtain ⟨s1, s2, s3, s4, s5⟩ := sorted_spec b1 b2
    refine ⟨_, rfl, s1, s2, s3, ?_, s5⟩
    intro pe hpe
    exact (s4 pe hpe).imp_right fun ⟨p, hp, e⟩ => ⟨p, e, hp⟩

theorem C27_factor_zero (T : List Nat) (fct : Nat → Nat → Option Nat) :
    factor T fct 0 = some (.error .valueError) := rfl

/-- With the real table, `factor(341550071728321)` returns the number itself as a prime,
although it is `10670053 * 32010157`. -/
theorem C27_factor_violation (fct : Nat → Nat → Option Nat) :
    factor primeList fct 341550071728321 = some (.ok [(341550071728321, 1)]) ∧
      ¬ Nat.Prime 341550071728321 ∧ (341550071728321 : Nat) = 10670053 * 32010157 := by
  have hcomp : (341550071728321 : Nat) = 10670053 * 32010157 := by norm_num
  refine ⟨?_, by rw [hcomp]; exact Nat.not_prime_mul (by norm_num) (by norm_num), hcomp⟩
  have hp1 : Nat.Prime 10670053 := by norm_num
  have hp2 : Nat.Prime 32010157 := by norm_num
  have hs : smallFactors primeList 341550071728321 [] = (341550071728321, []) := by
    apply smallFactors_none _ _ _ (by norm_num)
    intro p hp
    simp only [primeList, List.mem_filter, List.mem_range, decide_eq_true_eq] at hp
    refine ⟨fun hd => ?_, by nlinarith⟩
    rw [hcomp, hp.2.dvd_mul, Nat.prime_dvd_prime_iff_eq hp.2 hp1, Nat.prime_dvd_prime_iff_eq hp.2 hp2] at hd
    omega
  unfold factor
  rw [if_neg (by norm_num), if_neg (by norm_num)]
  have e : (341550071728321 : Int).natAbs = 341550071728321 := rfl
  simp only [e, hs]
  rw [bigFactors, if_pos (by norm_num), if_pos pseudoprime_accepted, bigFactors_one]
  rfl

example : factor [2, 3, 5, 7] (fun _ _ => none) (-60) = some (.ok [(-1, 1), (2, 2), (3, 1), (5, 1)]) := by
  have h : factor [2, 3, 5, 7] (fun _ _ => none) (-60) =
      some (.ok (pySort [(-1, 1), (2, 2), (3, 1), (5, 1)] pairLe)) := by
    unfold factor
    rw [if_neg (by norm_num), if_pos (by norm_num)]
    have : smallFactors [2, 3, 5, 7] (-60 : Int).natAbs [(-1, 1)] = (1, [(-1, 1), (2, 2), (3, 1), (5, 1)]) := by
      decide +kernel
    simp only [this, bigFactors_one]
  rw [h]; decide +kernel

/-! ## C28 -/

/-- `factor_back` multiplies a factorization out. -/
theorem C28_factor_back (L : List (Int × Nat)) : factorBack L = (L.map (fun pe => pe.1 ^ pe.2)).prod := by
  unfold factorBack
  rw [foldl_mul_eq, one_mul]

/-- `factor_back` inverts `factor`, whatever the random choices and however large `n` is. -/
theorem C28_factor_back_factor (T : List Nat) (hT : IsPrimeTable T) (rnd : Nat → Nat → Int × Int)
    (n : Int) (hn : n ≠ 0) (L : List (Int × Nat)) (h : factor T (rhoSplitter rnd) n = some (.ok L)) :
    factorBack L = n := by
  obtain ⟨l, hl, _⟩ := hT.last
  obtain ⟨L', h1, -, -, -, -, h2⟩ := C27_factor_partial T hT l hl rnd n hn _ h
  cases h1
  rw [C28_factor_back, h2]

/-- `xdivisors` yields every divisor exactly once. -/
theorem C28_xdivisors (fac : List (Nat × Nat)) (hf : DistinctPrimes fac) :
    (xdivisors fac).Nodup ∧ ∀ d, d ∈ xdivisors fac ↔ d ∣ facProd fac :=
  ⟨nodup_xdivisors fac hf, mem_xdivisors fac hf⟩

/-- `divisors` returns the strictly increasing list of all divisors. -/
theorem C28_divisors (fac : List (Nat × Nat)) (hf : DistinctPrimes fac) :
    (divisors fac).Pairwise (· < ·) ∧ ∀ d, d ∈ divisors fac ↔ d ∣ facProd fac := by
  refine ⟨pySort_nat_lt _ (nodup_xdivisors fac hf), fun d => ?_⟩
  unfold divisors
  rw [mem_pySort, mem_xdivisors fac hf]

/-- `prime_divisors` lists exactly the prime divisors, in the order of the factorization. -/
theorem C28_prime_divisors (fac : List (Nat × Nat)) (hf : DistinctPrimes fac)
    (he : ∀ pe ∈ fac, 1 ≤ pe.2) :
    (primeDivisors fac).Nodup ∧ ∀ q, q ∈ primeDivisors fac ↔ q.Prime ∧ q ∣ facProd fac := by
  refine ⟨hf.nodup, fun q => ?_⟩
  unfold primeDivisors
  constructor
  · intro h
    obtain ⟨pe, hpe, rfl⟩ := List.mem_map.1 h
    refine ⟨hf.prime pe hpe, ?_⟩
    rw [(hf.prime pe hpe).dvd_iff_one_le_factorization (facProd_pos hf.prime).ne',
      facProd_factorization_mem hf hpe]
    exact he pe hpe
  · rintro ⟨hq, hd⟩
    by_contra hc
    have h0 := facProd_factorization_notMem hf.prime q hc
    have := (hq.dvd_iff_one_le_factorization (facProd_pos hf.prime).ne').1 hd
    omega

/-- `divisor_pairs(n)`: exactly the pairs `(d, n/d)` with `d * (n/d) = n` and `d ≤ n/d`, by
increasing `d`. -/
theorem C28_divisor_pairs (fac : List (Nat × Nat)) (hf : DistinctPrimes fac) :
    (divisorPairs (facProd fac) fac).Pairwise (fun a b => a.1 < b.1) ∧
    ∀ a b, (a, b) ∈ divisorPairs (facProd fac) fac ↔ a * b = facProd fac ∧ a ≤ b := by
  have hpos : 0 < facProd fac := facProd_pos hf.prime
  obtain ⟨h1, h2⟩ := C28_divisors fac hf
  unfold divisorPairs
  generalize facProd fac = n at *
  have key : ∀ l : List Nat, l.Pairwise (· < ·) → (∀ d ∈ l, d ∣ n) →
      (pairsLoop n l).Pairwise (fun a b => a.1 < b.1) ∧
      ∀ a b, (a, b) ∈ pairsLoop n l ↔ a ∈ l ∧ a * b = n ∧ a ≤ b := by
    intro l hl hd
    induction l with
    | nil => simp [pairsLoop]
    | cons d l ih =>
      rw [List.pairwise_cons] at hl
      obtain ⟨i1, i2⟩ := ih hl.2 (fun x hx => hd x (List.mem_cons_of_mem _ hx))
      have hdn := hd d List.mem_cons_self
      have hd0 : 0 < d := Nat.pos_of_dvd_of_pos hdn hpos
      have hmul := Nat.mul_div_cancel' hdn
      simp only [pairsLoop]
      split
      · rename_i hlt
        refine ⟨List.Pairwise.nil, fun a b => ?_⟩
        simp only [List.not_mem_nil, false_iff, not_and]
        intro ha hab hle
        have hda : d ≤ a := by
          rcases List.mem_cons.1 ha with rfl | ha
          · exact le_rfl
          · exact (hl.1 a ha).le
        have : d * (n / d) < a * b := by
          rcases Nat.eq_zero_or_pos (n / d) with h0 | h0
          · rw [h0, mul_zero] at hmul; omega
          · calc d * (n / d) < d * d := by exact Nat.mul_lt_mul_of_pos_left hlt hd0
              _ ≤ a * b := Nat.mul_le_mul hda (hda.trans hle)
        omega
      · rename_i hlt
        refine ⟨List.pairwise_cons.2 ⟨?_, i1⟩, fun a b => ?_⟩
        · intro ab hab
          exact hl.1 _ ((i2 ab.1 ab.2).1 hab).1
        · rw [List.mem_cons, i2, List.mem_cons, Prod.mk.injEq]
          constructor
          · rintro (⟨rfl, rfl⟩ | ⟨h, h', h''⟩)
            · exact ⟨Or.inl rfl, hmul, by omega⟩
            · exact ⟨Or.inr h, h', h''⟩
          · rintro ⟨rfl | h, h', h''⟩
            · left
              refine ⟨rfl, ?_⟩
              rw [← h', Nat.mul_div_cancel_left _ hd0]
            · exact Or.inr ⟨h, h', h''⟩
  obtain ⟨k1, k2⟩ := key (divisors fac) h1 (fun d hd => (h2 d).1 hd)
  refine ⟨k1, fun a b => ?_⟩
  rw [k2, h2]
  constructor
  · rintro ⟨_, h⟩; exact h
  · rintro ⟨h, h'⟩; exact ⟨⟨b, h.symm⟩, h, h'⟩

example : divisors [(2, 2), (3, 1)] = [1, 2, 3, 4, 6, 12] := by decide +kernel
example : divisorPairs 12 [(2, 2), (3, 1)] = [(1, 12), (2, 6), (3, 4)] := by decide +kernel
example : DistinctPrimes [(2, 2), (3, 1)] := ⟨by decide, by decide⟩

/-! ## C36 -/

theorem stripPrime_spec (p n e : Nat) (hp : 2 ≤ p) (hn : 0 < n) :
    ∃ k, (stripPrime p n e).2 = e + k ∧ n = p ^ k * (stripPrime p n e).1 ∧
      ¬ p ∣ (stripPrime p n e).1 ∧ 0 < (stripPrime p n e).1 := by
  fun_induction stripPrime p n e with
  | case1 n e h ih =>
    have hd := Nat.dvd_of_mod_eq_zero h.2.2
    obtain ⟨k, h1, h2, h3, h4⟩ := ih (Nat.div_pos (Nat.le_of_dvd hn hd) (by omega))
    refine ⟨k + 1, by omega, ?_, h3, h4⟩
    have h5 := Nat.mul_div_cancel' hd
    generalize (stripPrime p (n / p) (e + 1)).1 = w at h2 ⊢
    rw [← h5, h2, pow_succ]; ring
  | case2 n e h =>
    refine ⟨0, by simp, by simp, fun hd => h ⟨hp, hn, Nat.mod_eq_zero_of_dvd hd⟩, hn⟩

theorem zeros_prod (base : List Nat) :
    ((base.zip (base.map (fun _ => 0))).map (fun pe => pe.1 ^ pe.2)).prod = 1 := by
  induction base with
  | nil => rfl
  | cons a l ih => simpa using ih

theorem smoothLoop_ok (n : Nat) (base : List Nat) (hb : ∀ p ∈ base, 2 ≤ p) (hn : 0 < n) (es : List Nat)
    (h : smoothLoop n base = .ok es) :
    es.length = base.length ∧ ((base.zip es).map (fun pe => pe.1 ^ pe.2)).prod = n := by
  induction base generalizing n es with
  | nil => simp [smoothLoop] at h
  | cons p rest ih =>
    simp only [List.mem_cons, forall_eq_or_imp] at hb
    obtain ⟨k, h1, h2, h3, h4⟩ := stripPrime_spec p n 0 hb.1 hn
    rw [zero_add] at h1
    simp only [smoothLoop] at h
    split at h
    · rename_i h5
      cases h
      refine ⟨by simp, ?_⟩
      rw [List.zip_cons_cons, List.map_cons, List.prod_cons, zeros_prod, h1]
      rw [h5] at h2
      exact h2.symm
    · cases hs : smoothLoop (stripPrime p n 0).1 rest with
      | error e => rw [hs] at h; cases h
      | ok es' =>
        rw [hs] at h
        cases h
        obtain ⟨i1, i2⟩ := ih _ hb.2 h4 es' hs
        refine ⟨by simp [i1], ?_⟩
        rw [List.zip_cons_cons, List.map_cons, List.prod_cons, i2, h1]
        exact h2.symm

theorem smoothLoop_complete (n : Nat) (base : List Nat) (hb : ∀ p ∈ base, p.Prime) (hne : base ≠ [])
    (hn : 0 < n) (hs : ∀ q, q.Prime → q ∣ n → q ∈ base) : ∃ es, smoothLoop n base = .ok es := by
  induction base generalizing n with
  | nil => exact absurd rfl hne
  | cons p rest ih =>
    simp only [List.mem_cons, forall_eq_or_imp] at hb
    obtain ⟨k, h1, h2, h3, h4⟩ := stripPrime_spec p n 0 hb.1.two_le hn
    have hd : (stripPrime p n 0).1 ∣ n := ⟨p ^ k, by rw [mul_comm]; exact h2⟩
    simp only [smoothLoop]
    split
    · exact ⟨_, rfl⟩
    · rename_i h5
      have hmem : ∀ q, q.Prime → q ∣ (stripPrime p n 0).1 → q ∈ rest := by
        intro q hq hqd
        rcases List.mem_cons.1 (hs q hq (hqd.trans hd)) with rfl | h
        · exact absurd hqd h3
        · exact h
      have hr : rest ≠ [] := by
        rintro rfl
        have := hmem _ (Nat.minFac_prime h5) (Nat.minFac_dvd _)
        simp at this
      obtain ⟨es, h⟩ := ih _ hb.2 hr h4 hmem
      exact ⟨_, by rw [h]⟩

/-- `smooth_factor(n, [p1, ..., pk])` on primes: it succeeds exactly when every prime factor
of `n ≥ 1` lies in the factor base, and then returns exponents whose product is `n`. -/
theorem C36_smooth_factor (n : Nat) (base : List Nat) (hb : ∀ p ∈ base, p.Prime) (hne : base ≠ [])
    (hn : 0 < n) :
    ((∃ es, smoothFactor n false base = .ok es) ↔ ∀ q, q.Prime → q ∣ n → q ∈ base) ∧
    ∀ es, smoothFactor n false base = .ok es →
      es.length = base.length ∧ ((base.zip es).map (fun pe => pe.1 ^ pe.2)).prod = n := by
  have h1 : smoothFactor n false base = smoothLoop n base := by simp [smoothFactor]
  rw [h1]
  have hok := fun es => smoothLoop_ok n base (fun p hp => (hb p hp).two_le) hn es
  refine ⟨⟨?_, fun h => smoothLoop_complete n base hb hne hn h⟩, hok⟩
  rintro ⟨es, h⟩ q hq hd
  obtain ⟨h2, h3⟩ := hok es h
  rw [← h3, Prime.dvd_prod_iff hq.prime] at hd
  obtain ⟨x, hx, hqx⟩ := hd
  obtain ⟨pe, hpe, rfl⟩ := List.mem_map.1 hx
  have hm := (List.of_mem_zip hpe).1
  have := (Nat.prime_dvd_prime_iff_eq hq (hb _ hm)).1 (hq.dvd_of_dvd_pow hqx)
  rw [this]; exact hm

/-- With `-1` in front of the base, for every integer `n ≠ 0`. -/
theorem C36_smooth_factor_signed (n : Int) (base : List Nat) (hb : ∀ p ∈ base, p.Prime) (hne : base ≠ [])
    (hn : n ≠ 0) :
    ((∃ es, smoothFactor n true base = .ok es) ↔ ∀ q : Nat, q.Prime → (q : Int) ∣ n → q ∈ base) ∧
    ∀ es, smoothFactor n true base = .ok es → es.length = base.length + 1 ∧
      ((((-1 : Int) :: List.map (fun p : Nat => (p : Int)) base).zip es).map (fun pe => pe.1 ^ pe.2)).prod = n := by
  obtain ⟨h1, h2⟩ := C36_smooth_factor n.natAbs base hb hne (by omega)
  have h3 : smoothFactor n.natAbs false base = smoothLoop n.natAbs base := by
    simp only [smoothFactor, Int.natAbs_natCast]; rfl
  rw [h3] at h1 h2
  constructor
  · have : (∃ es, smoothFactor n true base = .ok es) ↔ ∃ es, smoothLoop n.natAbs base = .ok es := by
      simp only [smoothFactor, if_true]
      cases smoothLoop n.natAbs base with
      | error e => simp
      | ok es => simp
    rw [this, h1]
    simp only [Int.natCast_dvd]
  · intro es h
    simp only [smoothFactor, if_true] at h
    cases hs : smoothLoop n.natAbs base with
    | error e => rw [hs] at h; cases h
    | ok es' =>
      rw [hs] at h
      cases h
      obtain ⟨a, b⟩ := h2 es' hs
      refine ⟨by simp [a], ?_⟩
      rw [List.zip_cons_cons, List.map_cons, List.prod_cons]
      have e : (((List.map (fun p : Nat => (p : Int)) base).zip es').map (fun pe => pe.1 ^ pe.2)).prod =
          ((((base.zip es').map (fun pe => pe.1 ^ pe.2)).prod : Nat) : Int) := by
        rw [Nat.cast_list_prod, List.map_map, List.zip_map_left, List.map_map]
        congr 1
      rw [e, b]
      split
      · rw [pow_one]; omega
      · rw [pow_zero]; omega

/-- `_z2_gaussian_elimination`: every returned vector is a nonzero 0/1 vector selecting rows
whose sum is even in every column, and at least `rows - columns` vectors are returned. -/
theorem C36_z2_elimination (M : List (List Nat)) (cols : Nat) (hM : M ≠ []) (hc : 0 < cols)
    (hrect : ∀ r ∈ M, r.length = cols) :
    ∃ K, z2Elimination M = .ok K ∧ M.length ≤ K.length + cols ∧
      ∀ v ∈ K, v.length = M.length ∧ (∀ x ∈ v, x = 0 ∨ x = 1) ∧ (∃ x ∈ v, x = 1) ∧
        ∀ c < cols, 2 ∣ ((v.zip M).map (fun vr => vr.1 * vr.2.getD c 0)).sum :=
  z2Elimination_spec M cols hM hc hrect

example : smoothFactor (-504) true [2, 3, 5, 7] = .ok [1, 3, 2, 0, 1] := by decide +kernel
example : smoothFactor 22 true [2, 3, 5, 7] = .error .valueError := by decide +kernel
example : z2Elimination [[1, 0, 3], [2, 1, 1], [1, 1, 0]] = .ok [[1, 1, 1]] := by decide +kernel

/-! ## C37 -/

/-- The state of the generator at pass `i`. -/
theorem aq_invariant (n g : Int) (i : Nat) :
    (aqState n g i).P0 + (aqState n g i).r0 = g ∧
    (aqState n g i).Q0 * (aqState n g i).Q1 = n - (aqState n g i).P0 ^ 2 ∧
    (∃ k, (aqState n g i).A1 ^ 2 = (-1) ^ i * (aqState n g i).Q1 + n * k) ∧
    (∃ k, (aqState n g i).A0 ^ 2 = -(-1) ^ i * (aqState n g i).Q0 + n * k) ∧
    (∃ k, (aqState n g i).A0 * (aqState n g i).A1 = -(-1) ^ i * (aqState n g i).P0 + n * k) := by
  induction i with
  | zero =>
    simp only [aqState, aqInit, pow_zero]
    exact ⟨by ring, by ring, ⟨0, by ring⟩, ⟨1, by ring⟩, ⟨0, by ring⟩⟩
  | succ i ih =>
    obtain ⟨h1, h2, ⟨k1, h3⟩, ⟨k2, h4⟩, ⟨k3, h5⟩⟩ := ih
    simp only [aqState, aqStep]
    generalize aqState n g i = s at *
    obtain ⟨A0, A1, Q0, Q1, P0, r0⟩ := s
    simp only at *
    generalize (g + P0).fdiv Q1 = q
    obtain ⟨t, ht⟩ : ∃ t, (q * A1 + A0).fmod n = q * A1 + A0 + n * t :=
      ⟨-((q * A1 + A0).fdiv n), by have := Int.fmod_add_mul_fdiv (q * A1 + A0) n; linarith⟩
    rw [ht]
    have hr : r0 = g - P0 := by linarith
    subst hr
    refine ⟨by ring, by linear_combination h2, ?_, ⟨k1, by rw [h3]; ring⟩, ?_⟩
    · refine ⟨q ^ 2 * k1 + 2 * q * k3 + k2 + 2 * (q * A1 + A0) * t + n * t ^ 2, ?_⟩
      rw [pow_succ]
      linear_combination q ^ 2 * h3 + 2 * q * h5 + h4
    · refine ⟨q * k1 + k3 + A1 * t, ?_⟩
      rw [pow_succ]
      linear_combination q * h3 + h5

/-- Every triple `(i, A, Q)` yielded by `_cfrac_aq_pairs(n)` satisfies `A² ≡ (-1)^i Q (mod n)`. -/
theorem C37_aq_pairs (n g : Int) (i : Nat) :
    (aqPair n g i).1 = i ∧
    (aqPair n g i).2.1 ^ 2 ≡ (-1) ^ i * (aqPair n g i).2.2 [ZMOD n] := by
  obtain ⟨-, -, ⟨k, h⟩, -, -⟩ := aq_invariant n g i
  refine ⟨rfl, ?_⟩
  simp only [aqPair]
  rw [h]
  exact (Int.modEq_iff_dvd.2 ⟨-k, by ring⟩)

/-- For `n` not a square and `g = ⌊√n⌋` the generator never divides by zero, and the yielded
`Q` satisfies `0 < Q ≤ 2g`. -/
theorem C37_aq_bounds (n g : Int) (hg : 1 ≤ g) (h1 : g * g < n) (h2 : n < (g + 1) * (g + 1)) (i : Nat) :
    0 < (aqPair n g i).2.2 ∧ (aqPair n g i).2.2 ≤ 2 * g ∧
    (aqPair n g i).2.2 ≤ g + (aqState n g i).P0 ∧
    0 ≤ (aqState n g i).P0 ∧ (aqState n g i).P0 ≤ g := by
  simp only [aqPair]
  suffices h : 0 < (aqState n g i).Q1 ∧ (aqState n g i).Q1 ≤ g + (aqState n g i).P0 ∧
      0 ≤ (aqState n g i).P0 ∧ (aqState n g i).P0 ≤ g by
    obtain ⟨a, b, c, d⟩ := h
    exact ⟨a, by omega, b, c, d⟩
  induction i with
  | zero =>
    simp only [aqState, aqInit]
    omega
  | succ i ih =>
    obtain ⟨a, b, c, d⟩ := ih
    obtain ⟨-, hQ, -, -, -⟩ := aq_invariant n g (i + 1)
    obtain ⟨h3, -, -, -, -⟩ := aq_invariant n g i
    simp only [aqState, aqStep] at hQ ⊢
    generalize aqState n g i = s at *
    obtain ⟨A0, A1, Q0, Q1, P0, r0⟩ := s
    simp only at *
    have e1 := Int.fmod_add_mul_fdiv (g + P0) Q1
    have e2 := Int.fmod_nonneg_of_pos (g + P0) a
    have e3 := Int.fmod_lt_of_pos (g + P0) a
    have e4 : 1 ≤ (g + P0).fdiv Q1 := by
      by_contra hc
      have : (g + P0).fdiv Q1 ≤ 0 := by omega
      nlinarith
    generalize (g + P0).fdiv Q1 = q at *
    generalize (g + P0).fmod Q1 = r at *
    have e5 : g + P0 - q * Q1 = r := by linarith
    rw [e5] at hQ ⊢
    have e6 : Q1 ≤ q * Q1 := by nlinarith
    have hP1 : 0 ≤ g - r := by linarith
    have hP2 : g - r ≤ g := by omega
    generalize hQ2 : Q0 + q * (r - r0) = Q2 at *
    have hpos : 0 < Q1 * Q2 := by rw [hQ]; nlinarith
    have hQ2pos : 0 < Q2 := (pos_iff_pos_of_mul_pos hpos).1 a
    refine ⟨hQ2pos, ?_, hP1, hP2⟩
    by_contra hc
    have hlt : g + (g - r) + 1 ≤ Q2 := by omega
    nlinarith

example : (List.range 5).map (aqPair 13290059 3645) =
    [(0, 1, 1), (1, 3645, 4034), (2, 3646, 3257), (3, 7291, 1555), (4, 32810, 1321)] := by decide +kernel

end Rosemary.Props
