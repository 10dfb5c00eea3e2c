import Verif.Props.Floats
import Verif.Props.MeisselLehmer
import Verif.Props.PrimeCounting
import Verif.Props.IntegerCalls
import Verif.Props.Tables

/-!
# All functions about primes speak of the same primes, tables and sums of the same values (C180)
-/

namespace Rosemary.Props

open Rosemary Rosemary.Core Rosemary.Primality Rosemary.Sieves Rosemary.PrimeCounting Rosemary.Sums Rosemary.Floats
open Rosemary.IntegerCalls

theorem primesUpTo_sum (n : Nat) : (Spec.primesUpTo n).sum = ∑ p ∈ (Finset.range (n + 1)).filter Nat.Prime, p := by
  have h : (Spec.primesUpTo n).Nodup := List.nodup_range.filter _
  have := List.sum_toFinset (fun p : Nat => p) h
  rw [List.map_id'] at this
  rw [← this]
  congr 1
  ext p
  simp [Spec.primesUpTo]

/-- C180: for every integer `n` the six sieves return one list `L`, increasing; a number is in `L` exactly if `is_prime` says so and
it is at most `n`; `legendre`, `lmo` and, for a right integer part of the roots, `meissel` return `len(L)`; `prime_sum2` returns
`sum(L)`. -/
theorem C180_sieves_and_counts (T : List Nat) (hT : IsPrimeTable T) (fsqrt fcbrt : Nat → Nat) (n : Int)
    (hs : FloorSqrt fsqrt n.toNat) (hc : FloorCbrt fcbrt n.toNat) :
    ∃ L : List Nat, primes T n = .ok L ∧ eratosthenes1 n = .ok L ∧ eratosthenes2 n = .ok L ∧ luo n = .ok L ∧
      pritchard T n = .ok L ∧ chartres n = some (.ok (some L)) ∧ L.Pairwise (· < ·) ∧
      (∀ p : Nat, p ∈ L ↔ (p : Int) ≤ n ∧ isPrime T p = .ok true) ∧
      legendre T n = .ok (L.length : Int) ∧ lmo T n = .ok (L.length : Int) ∧ meissel T fsqrt fcbrt n = .ok (L.length : Int) ∧
      (1 ≤ n → primeSum2 T n = .ok (L.sum : Int)) := by
  refine ⟨Spec.primesUpTo n.toNat, C18_primes T hT n, C18_eratosthenes1 n, C18_eratosthenes2 n, C18_luo n, C18_pritchard T hT n,
    C18_chartres n, (C18_primesUpTo _).1, fun p => ?_, ?_, ?_, ?_, fun h1 => ?_⟩
  · rw [(C18_primesUpTo _).2]
    obtain ⟨b, h1, h2⟩ := C16_is_prime T hT p
    rw [h1]
    have h3 : (∃ q : Nat, q.Prime ∧ (p : Int) = q) ↔ p.Prime :=
      ⟨fun ⟨q, hq, h⟩ => by rwa [show p = q by exact_mod_cast h], fun h => ⟨p, h, rfl⟩⟩
    rw [h3] at h2
    have h4 : (Except.ok b : Except PyErr Bool) = .ok true ↔ b = true := by simp
    rw [h4, h2, and_comm]
    refine and_congr_left fun hp => ?_
    have := hp.two_le
    omega
  · rw [C35_legendre T hT, primesUpTo_length]
  · rw [C103_lmo T hT, primesUpTo_length]
  · rw [C103_meissel T hT fsqrt fcbrt n hs hc, primesUpTo_length]
  · obtain ⟨m, rfl⟩ : ∃ m : Nat, n = m := ⟨n.toNat, by omega⟩
    rw [C35_prime_sum2 T hT m (by omega), Int.toNat_natCast, primesUpTo_sum]

/-- C180: `prime_count(n)[n]` is `len(primes(n))`, `prime_sum(n)` is `sum(primes(n))`, where `integer_sqrt` is exact. -/
theorem C180_prime_count_partial (T : List Nat) (hT : IsPrimeTable T) (n : Nat) (hn : 2 ≤ n)
    (h : (n : Int) < 4503599761588224 ∨ 2 ^ 60 < (n : Int)) :
    ∃ (L : List Nat) (S : Nat → Option Int) (tab : List Nat), primes T n = .ok L ∧ primeCount n = .ok S ∧
      S n = some (L.length : Int) ∧ primeSum n = .ok (L.sum : Int) ∧ piTable T n = .ok (L, tab) ∧ tab.length = n + 1 ∧
      ∀ k ≤ n, tab[k]? = some (L.filter (· ≤ k)).length := by
  obtain ⟨S, s1, s2, -⟩ := C35_prime_count_partial n (by omega) h
  refine ⟨_, S, _, C18_primes T hT n, s1, ?_, ?_, C35_pi_table T hT n hn, by simp, fun k hk => ?_⟩
  · have := s2 1 le_rfl (by omega) (by omega)
    rw [Nat.div_one] at this
    rw [this, Int.toNat_natCast, primesUpTo_length]
  · rw [C35_prime_sum_partial n (by omega) h, Int.toNat_natCast, primesUpTo_sum]
  · rw [List.getElem?_map, List.getElem?_range (by omega), Option.map_some, ← primesUpTo_length]
    congr 1
    rw [Int.toNat_natCast]
    have : (Spec.primesUpTo n).filter (· ≤ k) = Spec.primesUpTo k := by
      refine List.Perm.eq_of_pairwise (le := (· ≤ ·)) (fun a b _ _ => le_antisymm)
        (((C18_primesUpTo n).1.imp (fun h => h.le)).filter _) ((C18_primesUpTo k).1.imp (fun h => h.le))
        ((List.perm_ext_iff_of_nodup ((List.nodup_range.filter _).filter _) (List.nodup_range.filter _)).2 fun p => ?_)
      change p ∈ (Spec.primesUpTo n).filter _ ↔ p ∈ Spec.primesUpTo k
      rw [List.mem_filter, (C18_primesUpTo n).2, (C18_primesUpTo k).2, decide_eq_true_iff]
      exact ⟨fun h => ⟨h.1.1, h.2⟩, fun h => ⟨⟨h.1, h.2.trans hk⟩, h.2⟩⟩
    rw [this]

/-- C180: calling `next_prime` again and again, beginning with `next_prime(1)`, gives the list `primes(n)`: in the list
`[1] + primes(n)` each entry after the first is `next_prime` of the one before, and `next_prime` of the last one is above `n`. -/
theorem C180_next_prime (T : List Nat) (hT : IsPrimeTable T) (n : Nat) :
    ∃ L : List Nat, primes T n = .ok L ∧
      (∀ i x y : Nat, (1 :: L)[i]? = some x → (1 :: L)[i + 1]? = some y → nextPrime T (x : Int) = some (.ok (y : Int))) ∧
      ∀ x : Nat, (1 :: L).getLast? = some x → ∃ q : Nat, nextPrime T (x : Int) = some (.ok (q : Int)) ∧ n < q := by
  refine ⟨_, C18_primes T hT n, ?_⟩
  rw [Int.toNat_natCast]
  obtain ⟨h1, h2⟩ := C18_primesUpTo n
  have hs : (1 :: Spec.primesUpTo n).Pairwise (· < ·) := List.pairwise_cons.2 ⟨fun p hp => ((h2 p).1 hp).1.one_lt, h1⟩
  have hle : ∀ x ∈ 1 :: Spec.primesUpTo n, 1 ≤ x := fun x hx => by
    rcases List.mem_cons.1 hx with rfl | hx
    · exact le_rfl
    · exact ((h2 x).1 hx).1.one_lt.le
  rw [List.pairwise_iff_getElem] at hs
  refine ⟨fun i x y hx hy => ?_, fun x hx => ?_⟩
  · obtain ⟨hi, rfl⟩ := List.getElem?_eq_some_iff.1 hx
    obtain ⟨hj, rfl⟩ := List.getElem?_eq_some_iff.1 hy
    obtain ⟨p, p1, p2, p3, p4⟩ := C17_next_prime T hT _ (hle _ (List.getElem_mem hi))
    rw [p1]
    congr 3
    have hy2 := (h2 _).1 (show (1 :: Spec.primesUpTo n)[i + 1] ∈ Spec.primesUpTo n by
      rw [List.getElem_cons_succ]; exact List.getElem_mem _)
    have hle2 := p4 _ hy2.1 (hs i (i + 1) hi hj (by omega))
    refine le_antisymm hle2 ?_
    have hp : p ∈ 1 :: Spec.primesUpTo n := List.mem_cons_of_mem _ ((h2 p).2 ⟨p2, hle2.trans hy2.2⟩)
    obtain ⟨k, hk, rfl⟩ := List.getElem_of_mem hp
    rcases lt_trichotomy k i with h | h | h
    · exact absurd (hs k i hk hi h) (by omega)
    · subst h; exact absurd p3 (lt_irrefl _)
    · rcases Nat.eq_or_lt_of_le (show i + 1 ≤ k from h) with h | h
      · subst h; exact le_rfl
      · exact (hs (i + 1) k hj hk h).le
  · obtain ⟨q, q1, q2, q3, -⟩ := C17_next_prime T hT x (hle x (List.mem_of_getLast? hx))
    refine ⟨q, q1, ?_⟩
    by_contra hc
    have hq : q ∈ 1 :: Spec.primesUpTo n := List.mem_cons_of_mem _ ((h2 q).2 ⟨q2, by omega⟩)
    obtain ⟨k, hk, rfl⟩ := List.getElem_of_mem hq
    rw [List.getLast?_eq_getElem?, List.getElem?_eq_some_iff] at hx
    obtain ⟨hl, rfl⟩ := hx
    rcases Nat.eq_or_lt_of_le (show k ≤ (1 :: Spec.primesUpTo n).length - 1 by omega) with h | h
    · subst h; exact absurd q3 (lt_irrefl _)
    · exact absurd (hs k _ hk hl h) (by omega)

/-- C180: up to `2^39` the entries of the tables are the values of the functions and the sums are the sums of the entries, for
every faithful rounding of the floating point operations. -/
theorem C180_tables {rnd : ℝ → ℝ} (h : IsRounding rnd) (fct : Nat → Nat → Option Nat) (n : Nat) (hn : 0 < n) (hb : n ≤ 2 ^ 39) :
    (∃ L : List Int, Tables.eulerPhiList primeList n = .ok L ∧ L.length = n + 1 ∧
      (∀ k : Nat, 1 ≤ k → k ≤ n → ∃ v : Nat, eulerPhiCall primeList fct k = some (.ok v) ∧ L[k]? = some (v : Int)) ∧
      eulerPhiSum primeList (intSqrt rnd) n = .ok L.tail.sum) ∧
    (∃ L : List Int, Tables.moebiusList primeList (intSqrt rnd) n = .ok L ∧ L.length = n + 1 ∧
      (∀ k : Nat, 1 ≤ k → k ≤ n → ∃ v : Int, moebiusMuCall primeList fct k = some (.ok v) ∧ L[k]? = some v) ∧
      moebiusSum primeList (intSqrt rnd) n = .ok L.tail.sum) ∧
    (∃ L : List Int, Tables.tauList (intSqrt rnd) n = .ok L ∧ L.length = n + 1 ∧
      ∀ k : Nat, 1 ≤ k → k ≤ n → ∃ v : Nat, divisorTauCall primeList fct k = some (.ok v) ∧ L[k]? = some (v : Int)) ∧
    (∀ e : Nat, ∃ L : List Int, Tables.sigmaList primeList (intSqrt rnd) n e = .ok L ∧ L.length = n + 1 ∧
      (∀ k : Nat, 1 ≤ k → k ≤ n → ∃ v : Nat, divisorSigmaCall primeList fct k e = some (.ok v) ∧ L[k]? = some (v : Int)) ∧
      (e = 1 → sigmaSum (intSqrt rnd) n = .ok L.tail.sum)) := by
  have hsum : ∀ f : Nat → Int, (((List.range (n + 1)).map f).tail).sum = ∑ i ∈ Finset.Ioc 0 n, f i := by
    intro f
    rw [List.range_succ_eq_map, List.map_cons, List.tail_cons, List.map_map]
    have e : Finset.Ioc 0 n = (Finset.range n).image Nat.succ := by
      ext i
      simp only [Finset.mem_Ioc, Finset.mem_image, Finset.mem_range]
      exact ⟨fun h => ⟨i - 1, by omega, by omega⟩, fun ⟨j, h1, h2⟩ => by omega⟩
    rw [e, Finset.sum_image (fun a _ b _ h => Nat.succ_injective h), Finset.sum_range]
    rw [← List.sum_ofFn, List.ofFn_eq_map]
    rw [← List.map_coe_finRange_eq_range, List.map_map]
    rfl
  have hget : ∀ (f : Nat → Int) (k : Nat), k ≤ n → ((List.range (n + 1)).map f)[k]? = some (f k) := fun f k hk => by
    rw [List.getElem?_map, List.getElem?_range (by omega), Option.map_some]
  have hone : ∀ k : Nat, 1 ≤ k → k ≤ n → OneLarge 999983 k := fun k h1 h2 => (oneLarge_real h1 (by
    have : (2 : Nat) ^ 39 < 999984 ^ 2 := by norm_num
    omega)).1
  have hb' : n ≤ 2 ^ 48 := hb.trans (by norm_num)
  obtain ⟨u1, -, u3, u4⟩ := C141_sums h primeList primeList_isPrimeTable n hn hb'
  refine ⟨⟨_, C33_euler_phi_list primeList primeList_isPrimeTable n (by omega), by simp, fun k h1 h2 => ?_, ?_⟩,
    ⟨_, (C141_tables h primeList primeList_isPrimeTable n hn hb' 0).1, by simp, fun k h1 h2 => ?_, ?_⟩,
    ⟨_, (C141_tables h primeList primeList_isPrimeTable n hn hb' 0).2.1, by simp, fun k h1 h2 => ?_⟩,
    fun e => ⟨_, (C141_tables h primeList primeList_isPrimeTable n hn hb' e).2.2.1, by simp, fun k h1 h2 => ?_, ?_⟩⟩
  · rw [Int.toNat_natCast, hget _ k h2]
    exact ⟨_, (C139_multiplicative_partial fct k h1 (hone k h1 h2) 0).1, rfl⟩
  · rw [u1, Int.toNat_natCast, hsum]
  · rw [hget _ k h2]
    exact ⟨_, (C139_multiplicative_partial fct k h1 (hone k h1 h2) 0).2.1, rfl⟩
  · rw [u3, hsum]
  · rw [hget _ k h2]
    exact ⟨_, (C139_multiplicative_partial fct k h1 (hone k h1 h2) 0).2.2.1, rfl⟩
  · rw [hget _ k h2]
    exact ⟨_, (C139_multiplicative_partial fct k h1 (hone k h1 h2) e).2.2.2.1, rfl⟩
  · rintro rfl
    rw [u4, hsum]
    simp

/-! ## Examples -/

example : primes primeList 30 = .ok [2, 3, 5, 7, 11, 13, 17, 19, 23, 29] := by
  rw [C18_primes primeList primeList_isPrimeTable]; decide +kernel

example : ∃ L, primes primeList 30 = .ok L ∧ legendre primeList 30 = .ok (L.length : Int) ∧ L.length = 10 ∧
    primeSum2 primeList 30 = .ok (L.sum : Int) ∧ L.sum = 129 := by
  refine ⟨Spec.primesUpTo 30, C18_primes primeList primeList_isPrimeTable 30, ?_, by decide +kernel, ?_, by decide +kernel⟩
  · rw [C35_legendre primeList primeList_isPrimeTable, primesUpTo_length]; rfl
  · have := C35_prime_sum2 primeList primeList_isPrimeTable 30 (by norm_num)
    rw [← primesUpTo_sum] at this
    exact this

example : nextPrime primeList ((7 : Nat) : Int) = some (.ok ((11 : Nat) : Int)) := by
  obtain ⟨L, h1, h2, -⟩ := C180_next_prime primeList primeList_isPrimeTable 30
  rw [C18_primes primeList primeList_isPrimeTable, Except.ok.injEq] at h1
  exact h2 4 7 11 (by rw [← h1]; decide +kernel) (by rw [← h1]; decide +kernel)

end Rosemary.Props
