import Verif.Lemmas.Floats
import Verif.Props.Sums
import Verif.Props.PrimeRange
import Verif.Props.Pell
import Verif.Props.Lehmer
import Verif.Props.LmoBit
import Verif.Props.Enumeration

/-!
# C141: the floating point roots have the right integer parts

For every faithful rounding.  With this the theorems in which a floating point result is a parameter hold for
the expressions that the code contains, up to the stated bounds.
-/

namespace Rosemary.Props

open Rosemary Rosemary.Floats Rosemary.Core Rosemary.Primality Rosemary.PrimeCounting Rosemary.Sums

variable {rnd : ℝ → ℝ}

/-- C141: `int(n**(0.5))`. -/
theorem C141_int_sqrt (h : IsRounding rnd) (n : ℕ) (hn : n ≤ 2 ^ 48) : intSqrt rnd n = n.sqrt := by
  unfold intSqrt
  rw [rnd_nat h n (by omega)]
  rcases Nat.eq_zero_or_pos n with rfl | hpos
  · rw [rnd_half h, Nat.cast_zero, Real.zero_rpow (by norm_num)]
    have := rnd_nat h 0 (by norm_num)
    rw [Nat.cast_zero] at this
    rw [this]; simp
  · have h1 : n.sqrt * n.sqrt ≤ n := Nat.sqrt_le n
    have h2 : n + 1 ≤ (n.sqrt + 1) * (n.sqrt + 1) := Nat.lt_succ_sqrt n
    refine floor_sqrt h (by exact_mod_cast hpos) ?_ (by rw [sq]; exact_mod_cast h1) ?_
    · by_contra hc; nlinarith
    · have : ((n : ℝ) + 1) ≤ (n.sqrt + 1 : ℝ) * (n.sqrt + 1) := by exact_mod_cast h2
      rw [sq]; linarith

private theorem rnd_add_half (h : IsRounding rnd) (x : ℕ) (hx : x ≤ 2 ^ 51) :
    rnd (rnd x + rnd 0.5) = (x : ℝ) + 1 / 2 := by
  rw [rnd_nat h x (by omega), rnd_half h]
  have := h.exact _ (isDouble_half (2 * x + 1) (by rw [abs_of_nonneg (by positivity)]; omega))
  push_cast at this
  rw [show ((x : ℝ) + 1 / 2) = (2 * x + 1) / 2 by ring]
  exact this

/-- C141: `int((x + 0.5)**(0.5))`. -/
theorem C141_half_sqrt (h : IsRounding rnd) (x : ℕ) (hx : x ≤ 2 ^ 48) : halfSqrt rnd x = x.sqrt := by
  unfold halfSqrt
  rw [rnd_add_half h x (by omega)]
  have h1 : x.sqrt * x.sqrt ≤ x := Nat.sqrt_le x
  have h2 : x + 1 ≤ (x.sqrt + 1) * (x.sqrt + 1) := Nat.lt_succ_sqrt x
  refine floor_sqrt h (by positivity) ?_ ?_ ?_
  · by_contra hc; nlinarith
  · have : ((x.sqrt * x.sqrt : ℕ) : ℝ) ≤ x := by exact_mod_cast h1
    push_cast at this
    rw [sq]; linarith
  · have : ((x : ℝ) + 1) ≤ (x.sqrt + 1 : ℝ) * (x.sqrt + 1) := by exact_mod_cast h2
    rw [sq]; linarith

private theorem exists_cbrt (x : ℕ) : ∃ r, r ^ 3 ≤ x ∧ x < (r + 1) ^ 3 := by
  refine ⟨Nat.findGreatest (fun k => k ^ 3 ≤ x) x, ?_, ?_⟩
  · exact Nat.findGreatest_spec (P := fun k => k ^ 3 ≤ x) (Nat.zero_le x) (by simp)
  · by_contra hc
    rw [not_lt] at hc
    have h2 : Nat.findGreatest (fun k => k ^ 3 ≤ x) x + 1 ≤ x :=
      le_trans (Nat.le_self_pow (by norm_num) _) hc
    exact Nat.findGreatest_is_greatest (P := fun k => k ^ 3 ≤ x) (Nat.lt_succ_self _) h2 hc

private theorem third_cubed {a : ℝ} (ha : 0 < a) : (a ^ (1 / 3 : ℝ)) ^ 3 = a := by
  rw [← Real.rpow_natCast, ← Real.rpow_mul ha.le]; norm_num

/-- C141: `int((x + 0.5)**(1.0/3.0))`. -/
theorem C141_half_cbrt (h : IsRounding rnd) (x : ℕ) (hx : x ≤ 2 ^ 43) :
    halfCbrt rnd x ^ 3 ≤ x ∧ x < (halfCbrt rnd x + 1) ^ 3 := by
  obtain ⟨r, h1, h2⟩ := exists_cbrt x
  suffices hs : halfCbrt rnd x = r by rw [hs]; exact ⟨h1, h2⟩
  unfold halfCbrt
  rw [rnd_add_half h x (by omega)]
  set c := rnd (1.0 / 3.0) with hc
  have hc' := rnd_third h
  rw [← hc] at hc'
  rcases Nat.eq_zero_or_pos x with rfl | hpos
  · have hr : r = 0 := by
      by_contra h0
      have : 1 ≤ r ^ 3 := Nat.one_le_pow _ _ (by omega)
      omega
    subst hr
    have hc4 : (1 / 4 : ℝ) ≤ c := by
      have := (abs_le.1 hc').1; norm_num at this; linarith
    have hy : ((1 / 2 : ℝ)) ^ c ≤ 9 / 10 := by
      calc (1 / 2 : ℝ) ^ c ≤ (1 / 2 : ℝ) ^ (1 / 4 : ℝ) :=
            Real.rpow_le_rpow_of_exponent_ge (by norm_num) (by norm_num) hc4
        _ ≤ 9 / 10 := by
          apply le_of_pow_le_pow_left₀ (n := 4) (by norm_num) (by norm_num)
          rw [← Real.rpow_natCast, ← Real.rpow_mul (by norm_num)]
          norm_num
    have hpos : 0 < ((1 / 2 : ℝ)) ^ c := Real.rpow_pos_of_pos (by norm_num) c
    rw [Nat.cast_zero, zero_add]
    refine floor_rnd h (by norm_num) hpos (by simpa using hpos.le) ?_
    norm_num at *
    linarith
  · have hx1 : (1 : ℝ) ≤ x := by exact_mod_cast hpos
    have hx2 : (x : ℝ) ≤ 8796093022208 := by exact_mod_cast (by omega : x ≤ 8796093022208)
    have ha : (0 : ℝ) < (x : ℝ) + 1 / 2 := by linarith
    have hn := pow_near (a := (x : ℝ) + 1 / 2) (c := c) (q := 1 / 3) (θ := (2 : ℝ)⁻¹ ^ 47) (by linarith)
      (by norm_num; linarith) hc' (by norm_num) (by norm_num)
    have h1' : ((r : ℝ)) ^ 3 ≤ x := by exact_mod_cast h1
    have h2' : (x : ℝ) + 1 ≤ (r + 1) ^ 3 := by exact_mod_cast h2
    have hr : r ≤ 2 ^ 53 := le_trans (Nat.le_self_pow (by norm_num : 3 ≠ 0) r) (by omega)
    refine floor_third h hr (Real.rpow_pos_of_pos ha _) (by norm_num) (by norm_num) hn (g := 1 / 2) ?_ ?_ ?_
    · rw [third_cubed ha]; linarith
    · rw [third_cubed ha]; linarith
    · rw [third_cubed ha]; norm_num; linarith

/-- C141: `int((1 + (1 + 24*m)**(0.5))/6)`, the number of pentagonal numbers to be used. -/
theorem C141_pentagonal (h : IsRounding rnd) (m : ℕ) (hm : m ≤ 2 ^ 40) :
    pentagonalIndex rnd m = (1 + Nat.sqrt (1 + 24 * m)) / 6 := by
  unfold pentagonalIndex
  have e0 : rnd (1 + 24 * (m : ℝ)) = 1 + 24 * m := by
    have := rnd_nat h (1 + 24 * m) (by omega)
    push_cast at this
    exact this
  rw [e0, rnd_half h, ← Real.sqrt_eq_rpow]
  set K := (1 + Nat.sqrt (1 + 24 * m)) / 6 with hK
  set s := Nat.sqrt (1 + 24 * m) with hs
  have s1 : s * s ≤ 1 + 24 * m := Nat.sqrt_le _
  have s2 : 1 + 24 * m < (s + 1) * (s + 1) := Nat.lt_succ_sqrt _
  have s3 : 1 ≤ s := by rw [hs]; exact Nat.le_sqrt.2 (by omega)
  have k1 : 6 * K ≤ 1 + s := by omega
  have k2 : s + 1 ≤ 6 * K + 5 := by omega
  have sb : s ≤ 2 ^ 23 := by
    by_contra hc; nlinarith
  have ha : (0 : ℝ) < 1 + 24 * m := by positivity
  set a : ℝ := 1 + 24 * m with haeq
  have hsa : (s : ℝ) ≤ √a := Real.le_sqrt_of_sq_le (by rw [sq, haeq]; exact_mod_cast s1)
  have hs1 : (1 : ℝ) ≤ s := by exact_mod_cast s3
  have l1 : (s : ℝ) ≤ rnd (√a) := nat_le_rnd h (by omega) hsa
  have l2 : ((1 + s : ℕ) : ℝ) ≤ rnd (1 + rnd √a) := by
    refine nat_le_rnd h (by omega) ?_
    push_cast; linarith
  have l3 : (K : ℝ) ≤ rnd (rnd (1 + rnd √a) / 6) := by
    refine nat_le_rnd h (by omega) ?_
    have : ((6 * K : ℕ) : ℝ) ≤ ((1 + s : ℕ) : ℝ) := by exact_mod_cast k1
    push_cast at this l2
    linarith
  have hK0 : (0 : ℝ) ≤ K := by positivity
  rw [Nat.floor_eq_iff (le_trans hK0 l3)]
  refine ⟨l3, ?_⟩
  -- `q = 6 K + 5` satisfies `a + 1 ≤ q * q`
  have hq : a + 1 ≤ (6 * K + 5 : ℝ) * (6 * K + 5) := by
    have h1 : (s + 1) * (s + 1) ≤ (6 * K + 5) * (6 * K + 5) := Nat.mul_le_mul k2 k2
    have h2 : 1 + 24 * m + 1 ≤ (6 * K + 5) * (6 * K + 5) := by omega
    rw [haeq]
    exact_mod_cast h2
  set q : ℝ := 6 * K + 5 with hqdef
  have hq5 : 5 ≤ q := by rw [hqdef]; linarith
  have hqb : q ≤ 2 ^ 24 := by
    have : 6 * K + 5 ≤ 2 ^ 24 := by omega
    rw [hqdef]; exact_mod_cast this
  have hsq : √a * √a = a := Real.mul_self_sqrt ha.le
  have ha0 : 0 < √a := Real.sqrt_pos.2 ha
  have hsl : √a ≤ q - 1 / (2 * q) := by
    apply Real.sqrt_le_iff.2
    constructor
    · have : 1 / (2 * q) ≤ 1 := by rw [div_le_one (by linarith)]; linarith
      linarith
    · have e : (q - 1 / (2 * q)) ^ 2 = q * q - 1 + (1 / (2 * q)) ^ 2 := by
        field_simp
        ring
      rw [e]
      have := sq_nonneg (1 / (2 * q))
      linarith
  have u1 := rnd_le h ha0
  have u2 := rnd_le h (x := 1 + rnd √a) (by linarith)
  have u3 := rnd_le h (x := rnd (1 + rnd √a) / 6) (by
    have : (0 : ℝ) < ((1 + s : ℕ) : ℝ) := by positivity
    linarith)
  set δ : ℝ := 1 / (2 * q) with hδ
  have hδq : δ * q = 1 / 2 := by rw [hδ]; field_simp
  have hδ0 : 0 < δ := by rw [hδ]; positivity
  have hδ1 : (2 : ℝ)⁻¹ ^ 25 ≤ δ := by
    by_contra hc
    rw [not_le] at hc
    norm_num at hc hqb
    nlinarith
  norm_num at u1 u2 u3 hδ1 hqb
  nlinarith

/-- C141: `int((K / 2.0)**(0.5))`. -/
theorem C141_pell_bound (h : IsRounding rnd) (K : ℤ) (h0 : 0 ≤ K) (hK : K ≤ 2 ^ 48) :
    0 ≤ pellBound rnd K ∧ 2 * pellBound rnd K ^ 2 ≤ K ∧ K < 2 * (pellBound rnd K + 1) ^ 2 := by
  obtain ⟨k, rfl⟩ := Int.eq_ofNat_of_zero_le h0
  have e : pellBound rnd k = Nat.sqrt (k / 2) := by
    unfold pellBound
    have e1 : rnd (((k : ℤ) : ℝ)) = k := by
      rw [Int.cast_natCast]; exact rnd_nat h k (by omega)
    have e2 : rnd ((k : ℝ) / 2.0) = k / 2 := by
      have := h.exact _ (isDouble_half k (by rw [abs_of_nonneg h0]; omega))
      rw [Int.cast_natCast] at this
      rw [show (2.0 : ℝ) = 2 by norm_num]
      exact this
    have h1 : (k / 2).sqrt * (k / 2).sqrt ≤ k / 2 := Nat.sqrt_le _
    have h2 : k / 2 < ((k / 2).sqrt + 1) * ((k / 2).sqrt + 1) := Nat.lt_succ_sqrt _
    rw [e1, e2]
    rcases Nat.eq_zero_or_pos k with rfl | hpos
    · rw [rnd_half h, Nat.cast_zero, zero_div, Real.zero_rpow (by norm_num)]
      have := rnd_nat h 0 (by norm_num)
      rw [Nat.cast_zero] at this
      rw [this]; simp
    · rw [← Int.natCast_floor_eq_floor, floor_sqrt h (r := (k / 2).sqrt)]
      · have : (0 : ℝ) < k := by exact_mod_cast hpos
        linarith
      · by_contra hc
        have h5 : 33554432 ≤ (k / 2).sqrt := by omega
        have h6 := Nat.mul_le_mul h5 h5
        have h7 : k ≤ 281474976710656 := by omega
        omega
      · have : 2 * ((k / 2).sqrt * (k / 2).sqrt) ≤ k := by omega
        have : (2 : ℝ) * ((k / 2).sqrt * (k / 2).sqrt : ℕ) ≤ k := by exact_mod_cast this
        push_cast at this
        rw [sq]; linarith
      · have : k + 1 ≤ 2 * (((k / 2).sqrt + 1) * ((k / 2).sqrt + 1)) := by omega
        have : (k : ℝ) + 1 ≤ 2 * (((k / 2).sqrt + 1) * ((k / 2).sqrt + 1) : ℕ) := by exact_mod_cast this
        push_cast at this
        rw [sq]; linarith
      · have hk0 : (0 : ℝ) ≤ (k : ℝ) / 2 := by positivity
        have : (0 : ℝ) ≤ ((k : ℝ) / 2) ^ rnd 0.5 := Real.rpow_nonneg hk0 _
        have h00 := nat_le_rnd h (m := 0) (x := ((k : ℝ) / 2) ^ rnd 0.5) (by norm_num) (by rwa [Nat.cast_zero])
        rwa [Nat.cast_zero] at h00
  rw [e]
  have h1 : (k / 2).sqrt * (k / 2).sqrt ≤ k / 2 := Nat.sqrt_le _
  have h2 : k / 2 < ((k / 2).sqrt + 1) * ((k / 2).sqrt + 1) := Nat.lt_succ_sqrt _
  have h3 : 2 * ((k / 2).sqrt * (k / 2).sqrt) ≤ k := by omega
  have h4 : k < 2 * (((k / 2).sqrt + 1) * ((k / 2).sqrt + 1)) := by omega
  refine ⟨by positivity, ?_, ?_⟩
  · rw [sq]; exact_mod_cast h3
  · rw [sq]; exact_mod_cast h4

/-- C141: the two cube roots of `lmo_bit`, for numbers that are not cubes. -/
theorem C141_lmo_roots (h : IsRounding rnd) (x : ℕ) (h1 : 1 ≤ x) (hx : x ≤ 2 ^ 21) (hc : ∀ k, k ^ 3 ≠ x) :
    (lmoRoot rnd x ^ 3 ≤ x ^ 2 ∧ x ^ 2 < (lmoRoot rnd x + 1) ^ 3) ∧
    (lmoT rnd x ^ 3 ≤ x ∧ x < (lmoT rnd x + 1) ^ 3) := by
  have hx1 : (1 : ℝ) ≤ x := by exact_mod_cast h1
  have hx2 : (x : ℝ) ≤ 2097152 := by exact_mod_cast (by omega : x ≤ 2097152)
  have hx0 : (0 : ℝ) < x := by linarith
  constructor
  · obtain ⟨r, r1, r2⟩ := exists_cbrt (x ^ 2)
    suffices hs : lmoRoot rnd x = r by rw [hs]; exact ⟨r1, r2⟩
    have hne : r ^ 3 ≠ x ^ 2 := by
      intro he
      obtain ⟨s, hs⟩ : r ∣ x := by
        rw [← Nat.pow_dvd_pow_iff (n := 2) (by norm_num), ← he]
        exact pow_dvd_pow r (by norm_num)
      have hr0 : 0 < r := by
        rcases Nat.eq_zero_or_pos r with rfl | hr
        · rw [zero_mul] at hs; omega
        · exact hr
      refine hc s ?_
      rw [hs, mul_pow] at he
      have : r ^ 2 * r = r ^ 2 * s ^ 2 := by rw [← he]; ring
      have := Nat.eq_of_mul_eq_mul_left (by positivity) this
      rw [hs, this]; ring
    unfold lmoRoot
    rw [rnd_nat h x (by omega)]
    have hn := pow_near (a := (x : ℝ)) (q := 2 / 3) (θ := (2 : ℝ)⁻¹ ^ 46) hx1
      (by norm_num; linarith) (rnd_two_thirds h) (by norm_num) (by norm_num)
    have hz3 : ((x : ℝ) ^ (2 / 3 : ℝ)) ^ 3 = x ^ 2 := by
      rw [← Real.rpow_natCast, ← Real.rpow_mul hx0.le, ← Real.rpow_natCast]; norm_num
    have r1' : ((r : ℝ)) ^ 3 + 1 ≤ x ^ 2 := by
      have : r ^ 3 + 1 ≤ x ^ 2 := by omega
      exact_mod_cast this
    have r2' : (x : ℝ) ^ 2 + 1 ≤ (r + 1) ^ 3 := by exact_mod_cast r2
    have hr : r ≤ 2 ^ 53 := by
      have h3 : r ≤ r ^ 3 := Nat.le_self_pow (by norm_num : 3 ≠ 0) r
      have h4 : x ^ 2 ≤ (2 ^ 21) ^ 2 := Nat.pow_le_pow_left hx 2
      norm_num at h4
      omega
    refine floor_third h hr (Real.rpow_pos_of_pos hx0 _) (by norm_num) (by norm_num) hn (g := 1) ?_ ?_ ?_
    · rw [hz3]; exact r1'
    · rw [hz3]; exact r2'
    · rw [hz3]
      have : (x : ℝ) ^ 2 ≤ 2097152 ^ 2 := pow_le_pow_left₀ hx0.le hx2 2
      norm_num at this ⊢; linarith
  · obtain ⟨r, r1, r2⟩ := exists_cbrt x
    suffices hs : lmoT rnd x = r by rw [hs]; exact ⟨r1, r2⟩
    unfold lmoT
    rw [rnd_nat h x (by omega)]
    have hn := pow_near (a := (x : ℝ)) (q := 1 / 3) (θ := (2 : ℝ)⁻¹ ^ 42) hx1
      (by norm_num; linarith) (rnd_near_third h).2 (by norm_num) (by norm_num)
    have r1' : ((r : ℝ)) ^ 3 + 1 ≤ x := by
      have h3 := hc r
      have : r ^ 3 + 1 ≤ x := by omega
      exact_mod_cast this
    have r2' : (x : ℝ) + 1 ≤ (r + 1) ^ 3 := by exact_mod_cast r2
    have hr : r ≤ 2 ^ 53 := le_trans (Nat.le_self_pow (by norm_num : 3 ≠ 0) r) (by omega)
    refine floor_third h hr (Real.rpow_pos_of_pos hx0 _) (by norm_num) (by norm_num) hn (g := 1) ?_ ?_ ?_
    · rw [third_cubed hx0]; exact r1'
    · rw [third_cubed hx0]; exact r2'
    · rw [third_cubed hx0]; norm_num; linarith

private theorem intSqrt_exact (h : IsRounding rnd) (n : ℕ) (hn : n ≤ 2 ^ 48) : ExactSqrt (intSqrt rnd) n :=
  fun m hm => by rw [C141_int_sqrt h m (by omega)]; exact C32_exactSqrt m m le_rfl

/-- C141: the tables of arithmetic functions and the factored ranges, with the square root that the code
computes. -/
theorem C141_tables (h : IsRounding rnd) (T : List Nat) (hT : IsPrimeTable T) (n : ℕ) (hn : 0 < n)
    (hb : n ≤ 2 ^ 48) (k : ℕ) :
    Tables.moebiusList T (intSqrt rnd) n =
      .ok ((List.range (n + 1)).map (fun i => ArithmeticFunction.moebius i)) ∧
    Tables.tauList (intSqrt rnd) n = .ok ((List.range (n + 1)).map (fun i => (i.divisors.card : Int))) ∧
    Tables.sigmaList T (intSqrt rnd) n k =
      .ok ((List.range (n + 1)).map (fun i => ((∑ d ∈ i.divisors, d ^ k : Nat) : Int))) ∧
    Tables.factoredRange T (intSqrt rnd) 1 (some n) = .ok ((List.range' 1 (n - 1)).map
      (fun m => (m, if m = 1 then [(1, 1)] else Spec.primePowers m))) := by
  have e := intSqrt_exact h n hb n le_rfl
  have hn' : (0 : Int) < n := by omega
  have h1 := C33_moebius_list T hT (intSqrt rnd) n hn' (by simpa using e.2)
  have h2 := C33_tau_list (intSqrt rnd) n hn' (by simpa using e.1) (by simpa using e.2)
  have h3 := C33_sigma_list T hT (intSqrt rnd) n k hn' (by omega) (by simpa using e.1) (by simpa using e.2)
  have h4 := C34_factored_range T hT (intSqrt rnd) 1 n (by simpa using e.2)
  refine ⟨?_, ?_, ?_, ?_⟩
  · simpa using h1
  · simpa using h2
  · simpa using h3
  · simpa using h4

/-- C141: the summatory functions. -/
theorem C141_sums (h : IsRounding rnd) (T : List Nat) (hT : IsPrimeTable T) (n : ℕ) (hn : 0 < n)
    (hb : n ≤ 2 ^ 48) :
    eulerPhiSum T (intSqrt rnd) n = .ok (∑ i ∈ Finset.Ioc 0 n, (Nat.totient i : Int)) ∧
    eulerPhiWeightedSum T (intSqrt rnd) n = .ok (∑ i ∈ Finset.Ioc 0 n, (i : Int) * Nat.totient i) ∧
    moebiusSum T (intSqrt rnd) n = .ok (∑ i ∈ Finset.Ioc 0 n, ArithmeticFunction.moebius i) ∧
    sigmaSum (intSqrt rnd) n = .ok (∑ i ∈ Finset.Ioc 0 n, ((∑ d ∈ i.divisors, d : Nat) : Int)) := by
  have e := intSqrt_exact h n hb
  have hn' : (0 : Int) < n := by omega
  refine ⟨C32_euler_phi_sum T hT _ n hn' e, C32_euler_phi_weighted_sum T hT _ n hn' e,
    C32_moebius_sum T hT _ n hn' e, C32_sigma_sum _ n hn' (e n le_rfl).1 (e n le_rfl).2⟩

/-- C141: Meissel's method up to `2^43` and Lehmer's method up to `2^48`. -/
theorem C141_prime_counting (h : IsRounding rnd) (T : List Nat) (hT : IsPrimeTable T) (n : Int) :
    (n ≤ 2 ^ 43 → meissel T (halfSqrt rnd) (halfCbrt rnd) n = .ok (Nat.primeCounting n.toNat : Int)) ∧
    (∀ l, T.getLast? = some l → 4096 ≤ l → n ≤ 2 ^ 48 →
      (n ≤ l ∨ ∃ p q : Nat, p.Prime ∧ n < (p : Int) ^ 4 ∧
        (∀ p' : Nat, p'.Prime → n < (p' : Int) ^ 4 → p ≤ p') ∧ q.Prime ∧ n.toNat / p < q ∧ (q : Int) ^ 4 ≤ n ^ 3) →
      lehmer T (intSqrt rnd) n = .ok (Nat.primeCounting n.toNat : Int)) := by
  constructor
  · intro hn
    refine C103_meissel T hT _ _ n (fun x hx => ?_) (fun x hx => ?_)
    · rw [C141_half_sqrt h x (by omega)]
      exact C32_exactSqrt x x le_rfl
    · have := C141_half_cbrt h x (by omega)
      rw [pow_succ, sq, pow_succ, sq] at this
      exact this
  · intro l hl h4 hn hp
    exact C104_lehmer_partial T hT l hl h4 _ n (intSqrt_exact h _ (by omega)) hp

/-- C141: `lmo_bit(x)` for numbers that are not cubes. -/
theorem C141_lmo_bit_partial (h : IsRounding rnd) (T : List Nat) (hT : IsPrimeTable T) (x : ℕ) (h8 : 8 ≤ x)
    (hx : x ≤ 2 ^ 21) (hc : ∀ k, k ^ 3 ≠ x) :
    lmoBit T (lmoRoot rnd x) (lmoT rnd x) (intSqrt rnd x) x = .ok (Nat.primeCounting x : Int) := by
  obtain ⟨h1, h2⟩ := C141_lmo_roots h x (by omega) hx hc
  refine C119_lmo_bit_partial T hT _ _ _ x h8 h1 h2 ?_
  rw [C141_int_sqrt h x (by omega), sq, sq]
  exact C32_exactSqrt x x le_rfl

private theorem pow_third_lt {c ε : ℝ} (hc : c ≤ 1 / 3 - ε) : (27 : ℝ) ^ c * (1 + Real.log 27 * ε) ≤ 3 := by
  have h27 : (27 : ℝ) ^ (1 / 3 : ℝ) = 3 := by
    rw [show (27 : ℝ) = 3 ^ (3 : ℝ) by norm_num, ← Real.rpow_mul (by norm_num)]; norm_num
  have e1 : (27 : ℝ) ^ c ≤ 27 ^ (1 / 3 - ε) := Real.rpow_le_rpow_of_exponent_le (by norm_num) hc
  rw [Real.rpow_sub (by norm_num), h27, le_div_iff₀ (Real.rpow_pos_of_pos (by norm_num) _)] at e1
  refine le_trans (mul_le_mul_of_nonneg_left ?_ (Real.rpow_nonneg (by norm_num) _)) e1
  rw [Real.rpow_def_of_pos (by norm_num)]
  have e4 := Real.add_one_le_exp (Real.log 27 * ε)
  linarith

private theorem one_le_log : 1 ≤ Real.log 27 := by
  rw [Real.le_log_iff_exp_le (by norm_num)]
  have := Real.exp_one_lt_d9
  linarith

/-- C141: at cubes the exponent `0.33333333333333` is too small: `lmo_bit(27)` is 10 in every rounding
mode, but there are 9 primes up to 27. -/
theorem C141_lmo_bit_violation (h : IsRounding rnd) :
    lmoBit [2, 3, 5, 7] (lmoRoot rnd 27) (lmoT rnd 27) (intSqrt rnd 27) 27 = .ok 10 ∧
    Nat.primeCounting 27 = 9 := by
  obtain ⟨v1, v2, v3⟩ := C119_lmo_bit_violation
  have hs : intSqrt rnd 27 = 5 := by rw [C141_int_sqrt h 27 (by norm_num)]; decide +kernel
  have ht : lmoT rnd 27 = 2 := by
    unfold lmoT
    rw [rnd_nat h 27 (by norm_num)]
    obtain ⟨c1, c2⟩ := rnd_near_third h
    have hn := pow_near (a := 27) (q := 1 / 3) (θ := (2 : ℝ)⁻¹ ^ 42) (by norm_num)
      (by norm_num) c2 (by norm_num) (by norm_num)
    push_cast
    generalize rnd 0.33333333333333 = c at c1 c2 hn
    have h27 : (27 : ℝ) ^ (1 / 3 : ℝ) = 3 := by
      rw [show (27 : ℝ) = 3 ^ (3 : ℝ) by norm_num, ← Real.rpow_mul (by norm_num)]; norm_num
    have hlt := pow_third_lt c1.le
    have hlog := one_le_log
    have hpos : (0 : ℝ) < 27 ^ c := Real.rpow_pos_of_pos (by norm_num) _
    rw [h27] at hn
    clear c1 c2 h27
    generalize Real.log 27 = l at hlt hlog
    generalize (27 : ℝ) ^ c = y at hn hlt hpos ⊢
    have h2 := (abs_le.1 hn).1
    norm_num at h2
    refine floor_rnd h (by norm_num) (by linarith) (by push_cast; linarith) ?_
    norm_num at hlt ⊢
    nlinarith
  have hr : lmoRoot rnd 27 = 9 ∨ lmoRoot rnd 27 = 8 := by
    unfold lmoRoot
    rw [rnd_nat h 27 (by norm_num)]
    have hn := pow_near (a := 27) (q := 2 / 3) (θ := (2 : ℝ)⁻¹ ^ 46) (by norm_num)
      (by norm_num) (rnd_two_thirds h) (by norm_num) (by norm_num)
    have h27 : (27 : ℝ) ^ (2 / 3 : ℝ) = 9 := by
      rw [show (27 : ℝ) = 3 ^ (3 : ℝ) by norm_num, ← Real.rpow_mul (by norm_num)]; norm_num
    rw [h27] at hn
    push_cast
    generalize (27 : ℝ) ^ rnd (2.0 / 3.0) = y at hn
    obtain ⟨y1, y2⟩ := abs_le.1 hn
    norm_num at y1 y2
    have l : (8 : ℝ) ≤ rnd y := by
      have := nat_le_rnd h (m := 8) (x := y) (by norm_num) (by push_cast; linarith)
      exact_mod_cast this
    have u := rnd_le h (x := y) (by linarith)
    norm_num at u
    have f1 : 8 ≤ ⌊rnd y⌋₊ := Nat.le_floor (by exact_mod_cast l)
    have f2 : ⌊rnd y⌋₊ < 10 := (Nat.floor_lt (by linarith)).2 (by push_cast; linarith)
    omega
  rw [hs, ht]
  refine ⟨?_, v3⟩
  rcases hr with hr | hr <;> rw [hr]
  · exact v1
  · exact v2

/-- C141: the numbers of partitions. -/
theorem C141_partition_list (h : IsRounding rnd) (n : ℕ) (h1 : 1 ≤ n) (hn : n ≤ 2 ^ 40) :
    (∃ out, Enumeration.partitionList (pentagonalIndex rnd) n = .ok out ∧ out.length = n + 1 ∧
      ∀ k, k ≤ n → out.getD k 0 = Fintype.card k.Partition) ∧
    Enumeration.partitionNumber (pentagonalIndex rnd) n = .ok (Fintype.card n.Partition : Int) := by
  have hm : ∀ m, 2 ≤ m → m ≤ n → ∀ k, 1 ≤ k → (k * (3 * k - 1) / 2 ≤ m ↔ k ≤ pentagonalIndex rnd m) := by
    intro m _ hmn k hk
    rw [C141_pentagonal h m (by omega)]
    exact C57_exact_index m k hk
  exact ⟨C57_partition_list_partial _ n h1 hm, C57_partition_number_partial _ n h1 hm⟩

/-- C141: the primes of an interval beyond the table. -/
theorem C141_prime_range (h : IsRounding rnd) (T : List Nat) (hT : IsPrimeTable T) (a b : Int)
    (h2 : 2 ≤ a) (hab : a < b) (hb : b ≤ 2 ^ 48)
    (hgood : if b ≤ 10 ^ 7 then ¬ b.toNat.Prime else ¬ a.toNat.Prime ∨ (b.toNat.sqrt : Int) < a) :
    ∃ L, Sieves.primeRange T (intSqrt rnd) a (some b) = .ok L ∧ L.Pairwise (· < ·) ∧
      ∀ p : Nat, p ∈ L ↔ p.Prime ∧ a ≤ p ∧ (p : Int) < b :=
  C80_prime_range_partial T hT _ a b h2 hab (C141_int_sqrt h _ (by omega)) hgood

/-- C141: the generalised Pell equation, as long as the bound that is computed in floating point is that
of a number up to `2^48`. -/
theorem C141_pell (h : IsRounding rnd) (rand : ℕ → ℕ → ℤ) (fac : List (ℕ × ℕ)) (D N B : ℤ) (hd : 0 < D)
    (hns : ∀ k : ℤ, k ^ 2 ≠ D) (hD : D < 4503599761588224) (hf : FactorsTo fac D.toNat)
    (hrnd : ∀ pe ∈ fac, pe.1 % 8 = 1 → ∃ i, ¬ IsSquare ((rand pe.1 i : ℤ) : ZMod pe.1))
    (hb : ∀ u v : ℤ, ContinuedFractions.pellFundamentalSolution D = some (.ok (u, v)) → (u + 1) * |N| ≤ 2 ^ 48)
    (hN : N ≠ 0) (hnsq : N = 1 ∨ ∀ k : ℤ, k ^ 2 ≠ N) :
    ∃ out, Pell.solutionGenerator rand fac (pellBound rnd) D N B = some (.ok out) ∧ out.Nodup ∧
      ∀ x y : ℤ, (x, y) ∈ out ↔ 0 ≤ x ∧ x ≤ B ∧ 0 < y ∧ y ≤ B ∧ x ^ 2 - D * y ^ 2 = N := by
  refine C95_generator_partial rand fac _ D N B ⟨hd, hns, Or.inl hD, hf, hrnd, ?_⟩ hN hnsq
  intro u v K huv hK
  obtain ⟨x, y, hxy, hx, hy, he, -⟩ := C39_pell_fundamental_partial D hd hns (Or.inl hD)
  rw [huv] at hxy
  simp only [Option.some.injEq, Except.ok.injEq, Prod.mk.injEq] at hxy
  obtain ⟨rfl, rfl⟩ := hxy
  have hu : 1 ≤ u := hx
  have h3 := hb u v huv
  apply C141_pell_bound h
  · rw [hK]; split
    · nlinarith
    · nlinarith
  · rw [hK]; split
    · rename_i hp; rw [abs_of_pos hp] at h3; exact h3
    · rename_i hp
      rw [abs_of_neg (by omega)] at h3
      nlinarith

/-- Rounding down is a rounding mode, so the theorems are about something. -/
example : intSqrt (fun x => sSup {y | y ≤ x ∧ IsDouble y}) 1000000 = 1000 := by
  rw [C141_int_sqrt roundDown _ (by norm_num)]
  decide +kernel

end Rosemary.Props
