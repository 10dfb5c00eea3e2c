import Verif.Model.Factorization
import Verif.Model.ArithFunctions
import Verif.Lemmas.Factored
import Verif.Lemmas.Core
import Mathlib.NumberTheory.ArithmeticFunction.Carmichael
import Mathlib.NumberTheory.ArithmeticFunction.Moebius
import Mathlib.NumberTheory.ArithmeticFunction.Misc
import Mathlib.Algebra.Order.Ring.GeomSum
import Mathlib.Data.Nat.Totient

/-! Helper lemmas for divisor enumeration, arithmetic functions and `factorial`. -/

namespace Rosemary

theorem foldl_mul_eq {α : Type} {M : Type} [CommMonoid M] (f : α → M) (l : List α) (a : M) :
    l.foldl (fun prod x => prod * f x) a = a * (l.map f).prod := by
  induction l generalizing a with
  | nil => simp
  | cons x l ih => simp only [List.foldl_cons, ih, List.map_cons, List.prod_cons, mul_assoc]

theorem coprime_facProd {a : Nat × Nat} {l : List (Nat × Nat)} (h : DistinctPrimes (a :: l)) :
    Nat.Coprime (a.1 ^ a.2) (facProd l) := by
  have ha := h.prime a List.mem_cons_self
  have hn := (List.nodup_cons.1 (by simpa using h.nodup : (a.1 :: l.map Prod.fst).Nodup)).1
  apply Nat.Coprime.pow_left
  rw [Nat.Prime.coprime_iff_not_dvd ha]
  intro hd
  have h0 := facProd_factorization_notMem h.tail.prime a.1 hn
  have := (ha.dvd_iff_one_le_factorization (facProd_pos h.tail.prime).ne').1 hd
  omega

/-- A multiplicative function evaluated on a factored integer. -/
theorem multiplicative_facProd {R : Type} [CommSemiring R] (f : Nat → R) (h1 : f 1 = 1)
    (hmul : ∀ m n, Nat.Coprime m n → f (m * n) = f m * f n) (l : List (Nat × Nat))
    (hl : DistinctPrimes l) : f (facProd l) = (l.map (fun pe => f (pe.1 ^ pe.2))).prod := by
  induction l with
  | nil => simpa using h1
  | cons a l ih =>
    rw [facProd_cons, hmul _ _ (coprime_facProd hl), ih hl.tail, List.map_cons, List.prod_cons]

namespace Factorization

theorem tupleProd_eq (ps t : List Nat) :
    tupleProd ps t = ((ps.zip t).map (fun pe => pe.1 ^ pe.2)).prod := by
  unfold tupleProd
  rw [foldl_mul_eq, one_mul]

theorem xdivisors_cons (a : Nat × Nat) (l : List (Nat × Nat)) :
    xdivisors (a :: l) =
      (List.range (a.2 + 1)).flatMap (fun i => (xdivisors l).map (fun d => a.1 ^ i * d)) := by
  obtain ⟨p, e⟩ := a
  simp only [xdivisors, expTuples, List.map_flatMap, List.map_map, List.map_cons]
  congr 1
  funext i
  congr 1
  funext t
  simp [tupleProd_eq]

theorem mem_xdivisors (l : List (Nat × Nat)) (hl : DistinctPrimes l) (d : Nat) :
    d ∈ xdivisors l ↔ d ∣ facProd l := by
  induction l generalizing d with
  | nil => simp [xdivisors, expTuples, tupleProd]
  | cons a l ih =>
    rw [xdivisors_cons, facProd_cons, Nat.dvd_mul]
    simp only [List.mem_flatMap, List.mem_range, List.mem_map]
    constructor
    · rintro ⟨i, hi, d', hd', rfl⟩
      exact ⟨a.1 ^ i, d', pow_dvd_pow _ (by omega), (ih hl.tail d').1 hd', rfl⟩
    · rintro ⟨y, z, hy, hz, rfl⟩
      obtain ⟨i, hi, rfl⟩ := (Nat.dvd_prime_pow (hl.prime a List.mem_cons_self)).1 hy
      exact ⟨i, by omega, z, (ih hl.tail z).2 hz, rfl⟩

theorem pow_mul_inj {p i j m d d' : Nat} (hp : p.Prime) (hd : d ∣ m) (hd' : d' ∣ m)
    (hpm : ¬ p ∣ m) (h : p ^ i * d = p ^ j * d') : i = j := by
  have key : ∀ i j d d' : Nat, d' ∣ m → p ^ i * d = p ^ j * d' → i ≤ j := by
    intro i j d d' hd' h
    by_contra hc
    obtain ⟨k, rfl⟩ := Nat.exists_eq_add_of_lt (not_le.1 hc)
    have h2 : p ^ (k + 1) * d = d' := by
      apply Nat.eq_of_mul_eq_mul_left (show 0 < p ^ j by have := hp.pos; positivity)
      rw [← h, ← mul_assoc, ← pow_add, add_assoc]
    apply hpm
    refine Dvd.dvd.trans ?_ hd'
    rw [← h2, pow_succ]
    exact ⟨p ^ k * d, by ring⟩
  exact le_antisymm (key i j d d' hd' h) (key j i d' d hd h.symm)

theorem nodup_xdivisors (l : List (Nat × Nat)) (hl : DistinctPrimes l) : (xdivisors l).Nodup := by
  induction l with
  | nil => simp [xdivisors, expTuples]
  | cons a l ih =>
    have hp := hl.prime a List.mem_cons_self
    have hn := (List.nodup_cons.1 (by simpa using hl.nodup : (a.1 :: l.map Prod.fst).Nodup)).1
    have hpm : ¬ a.1 ∣ facProd l := by
      intro hd
      have h0 := facProd_factorization_notMem hl.tail.prime a.1 hn
      have := (hp.dvd_iff_one_le_factorization (facProd_pos hl.tail.prime).ne').1 hd
      omega
    rw [xdivisors_cons, List.nodup_flatMap]
    constructor
    · intro i _
      refine (ih hl.tail).map ?_
      intro x y h
      exact Nat.eq_of_mul_eq_mul_left (show 0 < a.1 ^ i by have := hp.pos; positivity) h
    · refine List.nodup_range.imp ?_
      intro i j hij
      rw [Function.onFun, List.disjoint_left]
      intro x hx hx'
      obtain ⟨d, hd, rfl⟩ := List.mem_map.1 hx
      obtain ⟨d', hd', h⟩ := List.mem_map.1 hx'
      exact hij (pow_mul_inj hp ((mem_xdivisors l hl.tail d).1 hd)
        ((mem_xdivisors l hl.tail d').1 hd') hpm h.symm)

end Factorization

namespace ArithFunctions

open Rosemary.Core

/-! ### factorial -/

theorem oddProd_split (a b c : Nat) (hab : a ≤ b) (hbc : b ≤ c) (hpar : a % 2 = b % 2) :
    oddProd a c = oddProd a b * oddProd b c := by
  fun_induction oddProd a b with
  | case1 a h ih =>
    rw [oddProd, dif_pos (by omega), ih (by omega) (by omega), mul_assoc]
  | case2 a h =>
    have : a = b := by omega
    subst this; rw [one_mul]

theorem oddProd_succ (a b : Nat) (hab : a ≤ b) (hpar : a % 2 ≠ b % 2) :
    oddProd a (b + 1) = oddProd a b := by
  fun_induction oddProd a b with
  | case1 a h ih =>
    rw [oddProd, dif_pos (by omega)]
    by_cases h2 : a + 2 ≤ b
    · rw [ih h2 (by omega)]
    · rw [oddProd, dif_neg (by omega), oddProd, dif_neg (by omega)]
  | case2 a h => omega

/-- Product of the odd numbers up to `m`. -/
def oddFac (m : Nat) : Nat := oddProd 1 (m + 1)

/-- The base of the power taken in pass `k`. -/
def passBase (n k : Nat) : Nat :=
  oddProd (if ((n >>> k) + 1) % 2 = 0 then (n >>> k) + 1 + 1 else (n >>> k) + 1) ((n >>> (k - 1)) + 1)

theorem factorialPass_eq (n k : Nat) : factorialPass n k = passBase n k ^ k := rfl

theorem oddFac_mul (m1 m2 : Nat) (h : m1 ≤ m2) :
    oddFac m1 * oddProd (if (m1 + 1) % 2 = 0 then m1 + 1 + 1 else m1 + 1) (m2 + 1) = oddFac m2 := by
  unfold oddFac
  split
  · rename_i hp
    rcases Nat.lt_or_eq_of_le h with h | rfl
    · rw [← oddProd_succ 1 (m1 + 1) (by omega) (by omega)]
      exact (oddProd_split 1 (m1 + 1 + 1) (m2 + 1) (by omega) (by omega) (by omega)).symm
    · conv_lhs => rw [oddProd.eq_1 (m1 + 1 + 1), dif_neg (by omega)]
      rw [mul_one]
  · exact (oddProd_split 1 (m1 + 1) (m2 + 1) (by omega) (by omega) (by omega)).symm

theorem oddFac_passBase (n k : Nat) (hk : 1 ≤ k) :
    oddFac (n >>> k) * passBase n k = oddFac (n >>> (k - 1)) := by
  apply oddFac_mul
  rw [Nat.shiftRight_eq_div_pow, Nat.shiftRight_eq_div_pow]
  apply Nat.div_le_div_left _ (by positivity)
  exact Nat.pow_le_pow_right (by norm_num) (by omega)

theorem prod_passBase (n j : Nat) :
    oddFac (n >>> j) * ((List.range' 1 j).map (passBase n)).prod = oddFac n := by
  induction j with
  | zero => simp
  | succ j ih =>
    have h := oddFac_passBase n (j + 1) (by omega)
    rw [Nat.add_sub_cancel] at h
    rw [List.range'_1_concat, List.map_append, List.prod_append, ← ih, ← h]
    simp only [List.map_cons, List.map_nil, List.prod_cons, List.prod_nil, mul_one]
    rw [Nat.add_comm 1 j]; ring

theorem passBase_half (n k : Nat) (hk : 1 ≤ k) : passBase n (k + 1) = passBase (n / 2) k := by
  have e : ∀ j, n >>> (j + 1) = (n / 2) >>> j := by
    intro j
    rw [Nat.shiftRight_eq_div_pow, Nat.shiftRight_eq_div_pow, Nat.div_div_eq_div_mul, pow_succ, mul_comm]
  obtain ⟨j, rfl⟩ := Nat.exists_eq_add_of_le' hk
  simp only [passBase, e, Nat.add_sub_cancel]

/-- The accumulated product of the passes. -/
def passProd (n : Nat) : Nat := ((List.range' 1 (n.size - 1)).map (factorialPass n)).prod

theorem passProd_half (n : Nat) (hn : 2 ≤ n) : passProd n = oddFac n * passProd (n / 2) := by
  have hsz : n.size = (n / 2).size + 1 := by
    conv_lhs => rw [show n = Nat.bit (n % 2 == 1) (n / 2) by
      rw [Nat.bit_val]; rcases Nat.mod_two_eq_zero_or_one n with h | h <;> simp [h] <;> omega]
    rw [Nat.size_bit]
    rw [Nat.bit_val]; rcases Nat.mod_two_eq_zero_or_one n with h | h <;> simp [h] <;> omega
  have hpos : 1 ≤ (n / 2).size := Nat.size_pos.2 (by omega)
  obtain ⟨j, hj⟩ := Nat.exists_eq_add_of_le' hpos
  -- all bases multiply to the odd factorial
  have hbase := prod_passBase n (n.size - 1)
  have htop : n >>> (n.size - 1) = 1 := by
    have h1 : 2 ^ (n.size - 1) ≤ n := pow_size_pred_le (by omega)
    have h2 := Nat.lt_size_self n
    rw [Nat.shiftRight_eq_div_pow]
    have h3 : n < 2 * 2 ^ (n.size - 1) := by
      rw [← pow_succ']; rwa [Nat.sub_add_cancel (by omega)]
    apply Nat.div_eq_of_lt_le <;> omega
  have hone : oddFac 1 = 1 := by decide +kernel
  rw [htop, hone, one_mul] at hbase
  have hshift : (List.range' 1 (n.size - 1)).map (factorialPass n) =
      factorialPass n 1 :: (List.range' 1 j).map (fun k => passBase (n / 2) k * factorialPass (n / 2) k) := by
    have : n.size - 1 = j + 1 := by omega
    rw [this, List.range'_succ, List.map_cons]
    congr 1
    rw [show List.range' (1 + 1) j = (List.range' 1 j).map (fun x => 1 + x) by
      rw [List.map_add_range']]
    rw [List.map_map]
    apply List.map_congr_left
    intro k hk
    have hk1 : 1 ≤ k := (List.mem_range'_1.1 hk).1
    simp only [Function.comp, factorialPass_eq]
    rw [Nat.add_comm 1 k, passBase_half n k hk1, pow_succ, mul_comm]
  have hb2 : ((List.range' 1 (n.size - 1)).map (passBase n)).prod =
      passBase n 1 * ((List.range' 1 j).map (passBase (n / 2))).prod := by
    have : n.size - 1 = j + 1 := by omega
    rw [this, List.range'_succ, List.map_cons, List.prod_cons]
    congr 1
    rw [show List.range' (1 + 1) j = (List.range' 1 j).map (fun x => 1 + x) by
      rw [List.map_add_range']]
    rw [List.map_map]
    congr 1
    apply List.map_congr_left
    intro k hk
    have hk1 : 1 ≤ k := (List.mem_range'_1.1 hk).1
    simp only [Function.comp]
    rw [Nat.add_comm 1 k, passBase_half n k hk1]
  unfold passProd
  rw [hshift, ← hbase, hb2, List.prod_cons, factorialPass_eq, pow_one, hj, Nat.add_sub_cancel,
    List.prod_map_mul]
  ring

theorem factorial_half (n : Nat) : n.factorial = oddFac n * 2 ^ (n / 2) * (n / 2).factorial := by
  induction n using Nat.strong_induction_on with
  | _ n ih =>
    match n with
    | 0 => decide +kernel
    | 1 => decide +kernel
    | n + 2 =>
      have h := ih n (by omega)
      rw [Nat.factorial_succ, Nat.factorial_succ, h]
      have e : (n + 2) / 2 = n / 2 + 1 := by omega
      rw [e, Nat.factorial_succ]
      have hO : oddFac (n + 2) = oddFac n * (if (n + 1) % 2 = 0 then n + 2 else n + 1) := by
        rw [← oddFac_mul n (n + 2) (by omega)]
        congr 1
        split
        · rw [oddProd, dif_pos (by omega), oddProd, dif_neg (by omega), mul_one]
        · rw [oddProd, dif_pos (by omega), oddProd, dif_neg (by omega), mul_one]
      rw [hO]
      split
      · rename_i hp
        have h2 : n + 1 = 2 * (n / 2 + 1) := by omega
        rw [pow_succ, show n + 1 + 1 = n + 2 from rfl, h2]; ring
      · rename_i hp
        have : n + 1 + 1 = 2 * (n / 2 + 1) := by omega
        rw [this, pow_succ]; ring

theorem popcount_half (n : Nat) : (Nat.digits 2 n).count 1 = n % 2 + (Nat.digits 2 (n / 2)).count 1 := by
  rcases Nat.eq_zero_or_pos n with rfl | h
  · simp
  · rw [Nat.digits_def' (by norm_num) h, List.count_cons]
    rcases Nat.mod_two_eq_zero_or_one n with h | h <;> simp [h] <;> omega

theorem popcount_le (n : Nat) : (Nat.digits 2 n).count 1 ≤ n := by
  induction n using Nat.strong_induction_on with
  | _ n ih =>
    rcases Nat.eq_zero_or_pos n with rfl | h
    · simp
    · rw [popcount_half]
      have := ih (n / 2) (by omega)
      omega

theorem factorial_eq (n : Nat) (hn : 1 ≤ n) :
    n.factorial = passProd n * 2 ^ (n - (Nat.digits 2 n).count 1) := by
  induction n using Nat.strong_induction_on with
  | _ n ih =>
    rcases Nat.lt_or_ge n 2 with h | h
    · have : n = 1 := by omega
      subst this; decide +kernel
    · rw [factorial_half n, ih (n / 2) (by omega) (by omega), passProd_half n h]
      have h1 := popcount_half n
      have h2 := popcount_le (n / 2)
      have h3 : n - (Nat.digits 2 n).count 1 = n / 2 + (n / 2 - (Nat.digits 2 (n / 2)).count 1) := by
        omega
      rw [h3, pow_add]; ring

end ArithFunctions
end Rosemary
