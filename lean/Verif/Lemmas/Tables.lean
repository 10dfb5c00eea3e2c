import Verif.Model.Tables
import Verif.Lemmas.Sieves
import Mathlib.Data.Nat.Totient
import Mathlib.Data.Nat.Factorization.Basic
import Mathlib.NumberTheory.ArithmeticFunction.Misc
import Mathlib.NumberTheory.ArithmeticFunction.Moebius
import Mathlib.Algebra.BigOperators.Group.List.Basic

/-!
# Lemmas about the sieved tables
-/

namespace Rosemary.Tables

open Rosemary.Sieves Rosemary.Spec

theorem mem_pyRangeStep {a b s i : Nat} (hs : 0 < s) :
    i ∈ pyRangeStep a b s ↔ a ≤ i ∧ i < b ∧ s ∣ i - a := by
  unfold pyRangeStep
  rw [List.mem_range']
  constructor
  · rintro ⟨k, hk, rfl⟩
    have h1 : k + 1 ≤ (b - a + s - 1) / s := hk
    rw [Nat.le_div_iff_mul_le hs] at h1
    have h2 : (k + 1) * s = s * k + s := by ring
    refine ⟨by omega, by omega, ?_⟩
    rw [Nat.add_sub_cancel_left]
    exact dvd_mul_right _ _
  · rintro ⟨h1, h2, k, hk⟩
    refine ⟨k, ?_, by omega⟩
    have : k + 1 ≤ (b - a + s - 1) / s := by
      rw [Nat.le_div_iff_mul_le hs]
      have h3 : (k + 1) * s = s * k + s := by ring
      omega
    exact this

theorem mem_multiples {s n i : Nat} (hs : 0 < s) :
    i ∈ pyRangeStep s (n + 1) s ↔ 0 < i ∧ i ≤ n ∧ s ∣ i := by
  rw [mem_pyRangeStep hs]
  constructor
  · rintro ⟨h1, h2, h3⟩
    refine ⟨by omega, by omega, ?_⟩
    have := (Nat.dvd_add_right (dvd_refl s)).2 h3
    rwa [Nat.add_sub_cancel' h1] at this
  · rintro ⟨h1, h2, h3⟩
    exact ⟨Nat.le_of_dvd h1 h3, by omega, Nat.dvd_sub h3 (dvd_refl s)⟩

theorem nodup_pyRangeStep {a b s : Nat} (hs : 0 < s) : (pyRangeStep a b s).Nodup :=
  List.nodup_range' s hs

/-- The table `block` of length `n` holds `g i` at index `i`. -/
structure Tab {α : Type} (n : Nat) (block : List α) (g : Nat → α) : Prop where
  len : block.length = n
  get : ∀ i, i < n → block[i]? = some (g i)

theorem Tab.congr {α : Type} {n : Nat} {block : List α} {g g' : Nat → α} (h : Tab n block g)
    (hg : ∀ i, i < n → g i = g' i) : Tab n block g' :=
  ⟨h.len, fun i hi => by rw [h.get i hi, hg i hi]⟩

theorem Tab.replicate {α : Type} (n : Nat) (x : α) : Tab n (List.replicate n x) (fun _ => x) :=
  ⟨by simp, fun i hi => by simp [hi]⟩

theorem Tab.set {α : Type} {n : Nat} {block : List α} {g : Nat → α} (h : Tab n block g) (i : Nat)
    (v : α) : Tab n (block.set i v) (fun j => if j = i then v else g j) := by
  refine ⟨by simp [h.len], fun j hj => ?_⟩
  rw [List.getElem?_set]
  by_cases hij : i = j
  · subst hij
    simp [h.len, hj]
  · rw [if_neg hij, h.get j hj, if_neg (fun h => hij h.symm)]

theorem Tab.eq_map {α : Type} {n : Nat} {block : List α} {g : Nat → α} (h : Tab n block g) :
    block = (List.range n).map g := by
  apply List.ext_getElem?
  intro i
  by_cases hi : i < n
  · rw [h.get i hi]; simp [hi]
  · rw [List.getElem?_eq_none (by rw [h.len]; omega), List.getElem?_eq_none (by simp; omega)]

theorem forIdx_spec {n : Nat} (f : Nat → Int → Int) (is : List Nat) (hnd : is.Nodup)
    (hlt : ∀ i ∈ is, i < n) (block : List Int) (g : Nat → Int) (h : Tab n block g) :
    ∃ b, forIdx f is block = .ok b ∧ Tab n b (fun j => if j ∈ is then f j (g j) else g j) := by
  induction is generalizing block g with
  | nil => exact ⟨block, rfl, by simpa using h⟩
  | cons i is ih =>
    rw [List.nodup_cons] at hnd
    unfold forIdx
    rw [h.get i (hlt i (by simp))]
    dsimp only
    obtain ⟨b, hb, ht⟩ := ih hnd.2 (fun j hj => hlt j (by simp [hj])) _ _ (h.set i (f i (g i)))
    refine ⟨b, hb, ht.congr ?_⟩
    intro j hj
    by_cases hji : j = i
    · subst hji
      simp [hnd.1]
    · simp [hji]

/-! ## euler_phi_list -/

theorem phiPowers_spec {n p : Nat} (hp : p.Prime) (k : Nat) (block : List Int)
    (g : Nat → Int) (h : Tab (n + 1) block g) :
    ∃ b, phiPowers n p (p ^ k) block = .ok b ∧
      Tab (n + 1) b (fun i => if 0 < i then g i * p ^ (i.factorization p + 1 - k) else g i) := by
  induction hm : n + 1 - p ^ k using Nat.strong_induction_on generalizing k block g with
  | _ m ih =>
    have hpos : 0 < p ^ k := Nat.pow_pos hp.pos
    rw [phiPowers]
    by_cases hle : p ^ k ≤ n
    · rw [dif_pos ⟨hle, hpos, hp.one_lt⟩]
      obtain ⟨b1, hb1, ht1⟩ := forIdx_spec (n := n + 1) (fun _ v => v * (p : Int))
        (pyRangeStep (p ^ k) (n + 1) (p ^ k)) (nodup_pyRangeStep hpos)
        (fun i hi => by have := (mem_multiples hpos).1 hi; omega) block g h
      rw [hb1]
      have hlt : p ^ k < p ^ (k + 1) := Nat.pow_lt_pow_right hp.one_lt (Nat.lt_succ_self k)
      obtain ⟨b, hb, ht⟩ := ih (n + 1 - p ^ (k + 1)) (by omega) (k + 1) b1 _ ht1 rfl
      refine ⟨b, by rw [← pow_succ]; exact hb, ht.congr ?_⟩
      intro i hi
      by_cases h0 : 0 < i
      · simp only [h0, if_true, mem_multiples hpos]
        by_cases hd : p ^ k ∣ i
        · have hv : k ≤ i.factorization p := (hp.pow_dvd_iff_le_factorization (by omega)).1 hd
          rw [if_pos ⟨trivial, by omega, hd⟩, mul_assoc, ← pow_succ']
          congr 2; omega
        · have hv : ¬ k ≤ i.factorization p :=
            fun h => hd ((hp.pow_dvd_iff_le_factorization (by omega)).2 h)
          rw [if_neg (fun h => hd h.2.2)]
          congr 2; omega
      · simp only [h0, if_false, mem_multiples hpos, false_and]
    · rw [dif_neg (fun h => hle h.1)]
      refine ⟨block, rfl, h.congr ?_⟩
      intro i hi
      split
      · rename_i h0
        have hv : ¬ k ≤ i.factorization p := by
          intro h
          have := Nat.le_of_dvd h0 ((hp.pow_dvd_iff_le_factorization (by omega)).2 h)
          omega
        rw [show i.factorization p + 1 - k = 0 by omega]; simp
      · rfl

/-- The contribution of `p` to `phi(i)`. -/
def phiTerm (i p : Nat) : Int := if 0 < i ∧ p ∣ i then (p - 1) * p ^ (i.factorization p - 1) else 1

theorem phiLoop_spec {n : Nat} (ps : List Nat) (hps : ∀ p ∈ ps, p.Prime) (block : List Int)
    (g : Nat → Int) (h : Tab (n + 1) block g) :
    ∃ b, phiLoop n ps block = .ok b ∧
      Tab (n + 1) b (fun i => g i * (ps.map (phiTerm i)).prod) := by
  induction ps generalizing block g with
  | nil => exact ⟨block, rfl, by simpa using h⟩
  | cons p ps ih =>
    have hp := hps p (by simp)
    unfold phiLoop
    obtain ⟨b1, hb1, ht1⟩ := forIdx_spec (n := n + 1) (fun _ v => v * ((p : Int) - 1))
      (pyRangeStep p (n + 1) p) (nodup_pyRangeStep hp.pos)
      (fun i hi => by have := (mem_multiples hp.pos).1 hi; omega) block g h
    rw [hb1]
    dsimp only
    obtain ⟨b2, hb2, ht2⟩ := phiPowers_spec hp 2 b1 _ ht1
    rw [show p * p = p ^ 2 by ring, hb2]
    dsimp only
    obtain ⟨b, hb, ht⟩ := ih (fun q hq => hps q (by simp [hq])) b2 _ ht2
    refine ⟨b, hb, ht.congr ?_⟩
    intro i hi
    simp only [List.map_cons, List.prod_cons, ← mul_assoc]
    congr 1
    simp only [mem_multiples hp.pos, phiTerm]
    by_cases h0 : 0 < i
    · by_cases hd : p ∣ i
      · rw [if_pos h0, if_pos ⟨h0, by omega, hd⟩, if_pos ⟨h0, hd⟩, mul_assoc]
        congr 3
      · have : i.factorization p = 0 := Nat.factorization_eq_zero_of_not_dvd hd
        rw [if_pos h0, if_neg (fun h => hd h.2.2), if_neg (fun h => hd h.2), this]
        simp
    · rw [if_neg h0, if_neg (fun h => h0 h.1), if_neg (fun h => h0 h.1), mul_one]

/-- A product over the primes up to `n` whose terms are trivial off the divisors of `i`. -/
theorem prod_primesUpTo {M : Type} [CommMonoid M] {n i : Nat} (hi : 0 < i) (hin : i ≤ n)
    (f : Nat → M) (hf : ∀ p, p.Prime → ¬ p ∣ i → f p = 1) :
    ((primesUpTo n).map f).prod = ∏ p ∈ i.primeFactors, f p := by
  have hnd : (primesUpTo n).Nodup := (primesUpTo_sorted n).imp (fun h => Nat.ne_of_lt h)
  rw [← List.prod_toFinset _ hnd]
  symm
  apply Finset.prod_subset
  · intro p hp
    rw [List.mem_toFinset, mem_primesUpTo]
    exact ⟨Nat.prime_of_mem_primeFactors hp,
      (Nat.le_of_dvd hi (Nat.dvd_of_mem_primeFactors hp)).trans hin⟩
  · intro p hp hnp
    rw [List.mem_toFinset, mem_primesUpTo] at hp
    exact hf p hp.1 (fun hd => hnp (Nat.mem_primeFactors.2 ⟨hp.1, hd, by omega⟩))

theorem phi_prod {n i : Nat} (hi : 0 < i) (hin : i ≤ n) :
    ((primesUpTo n).map (phiTerm i)).prod = (i.totient : Int) := by
  rw [prod_primesUpTo hi hin]
  · rw [Nat.totient_eq_prod_factorization (by omega), Finsupp.prod, Nat.support_factorization]
    push_cast
    apply Finset.prod_congr rfl
    intro p hp
    have hpp := Nat.prime_of_mem_primeFactors hp
    rw [phiTerm, if_pos ⟨hi, Nat.dvd_of_mem_primeFactors hp⟩, mul_comm]
    rw [Nat.cast_sub hpp.one_le]
    push_cast; ring
  · intro p hp hd
    rw [phiTerm, if_neg (fun h => hd h.2)]

/-! ## sigma_list, general exponent -/

/-- `1 + x + ... + x^j`. -/
def geom (x : Int) (j : Nat) : Int := ∑ l ∈ Finset.range (j + 1), x ^ l

theorem geom_mul (x : Int) (j : Nat) : geom x j * (x - 1) = x ^ (j + 1) - 1 := by
  unfold geom
  exact geom_sum_mul x (j + 1)

theorem sigmaPowers_spec {n p : Nat} (hp : p.Prime) (x : Int) (hx : 1 < x) (k : Nat) (hk : 0 < k)
    (block : List Int) (c : Nat → Int)
    (h : Tab (n + 1) block (fun i => if 0 < i then c i * geom x (min (i.factorization p) (k - 1)) else 0)) :
    ∃ b, sigmaPowers n p (p ^ k) x (x ^ (k + 1)) (x ^ k) block = .ok b ∧
      Tab (n + 1) b (fun i => if 0 < i then c i * geom x (i.factorization p) else 0) := by
  induction hm : n + 1 - p ^ k using Nat.strong_induction_on generalizing k block with
  | _ m ih =>
    have hpos : 0 < p ^ k := Nat.pow_pos hp.pos
    rw [sigmaPowers]
    by_cases hle : p ^ k ≤ n
    · rw [dif_pos ⟨hle, hpos, hp.one_lt⟩]
      obtain ⟨b1, hb1, ht1⟩ := forIdx_spec (n := n + 1)
        (fun _ v => (v * (x ^ (k + 1) - 1)).fdiv (x ^ k - 1))
        (pyRangeStep (p ^ k) (n + 1) (p ^ k)) (nodup_pyRangeStep hpos)
        (fun i hi => by have := (mem_multiples hpos).1 hi; omega) block _ h
      rw [hb1]
      dsimp only
      have hlt : p ^ k < p ^ (k + 1) := Nat.pow_lt_pow_right hp.one_lt (Nat.lt_succ_self k)
      have := ih (n + 1 - p ^ (k + 1)) (by omega) (k + 1) (by omega) b1 (ht1.congr ?_) rfl
      · obtain ⟨b, hb, ht⟩ := this
        exact ⟨b, by rw [← pow_succ, ← pow_succ]; exact hb, ht⟩
      · intro i hi
        by_cases h0 : 0 < i
        · simp only [h0, if_true, mem_multiples hpos]
          by_cases hd : p ^ k ∣ i
          · have hv : k ≤ i.factorization p := (hp.pow_dvd_iff_le_factorization (by omega)).1 hd
            rw [if_pos ⟨trivial, by omega, hd⟩, Nat.min_eq_right (by omega), Nat.min_eq_right (by omega)]
            have h1 : 1 < x ^ k := one_lt_pow₀ hx (by omega)
            have h2 := geom_mul x (k - 1)
            rw [Nat.sub_add_cancel hk] at h2
            have h3 := geom_mul x k
            rw [Nat.add_sub_cancel, ← h3]
            have : c i * geom x (k - 1) * (geom x k * (x - 1)) = (c i * geom x k) * (x ^ k - 1) := by
              rw [← h2]; ring
            rw [this, Int.fdiv_eq_ediv_of_nonneg _ (by omega), Int.mul_ediv_cancel _ (by omega)]
          · have hv : ¬ k ≤ i.factorization p :=
              fun h => hd ((hp.pow_dvd_iff_le_factorization (by omega)).2 h)
            rw [if_neg (fun h => hd h.2.2), Nat.min_eq_left (by omega), Nat.min_eq_left (by omega)]
        · simp only [h0, if_false, mem_multiples hpos, false_and]
    · rw [dif_neg (fun h => hle h.1)]
      refine ⟨block, rfl, h.congr ?_⟩
      intro i hi
      split
      · rename_i h0
        have hv : ¬ k ≤ i.factorization p := by
          intro h
          have := Nat.le_of_dvd h0 ((hp.pow_dvd_iff_le_factorization (by omega)).2 h)
          omega
        rw [Nat.min_eq_left (by omega)]
      · rfl

theorem sigmaLoop_spec {n k : Nat} (hk : 0 < k) (ps : List Nat) (hps : ∀ p ∈ ps, p.Prime)
    (block : List Int) (c : Nat → Int) (h : Tab (n + 1) block (fun i => if 0 < i then c i else 0)) :
    ∃ b, sigmaLoop n k ps block = .ok b ∧
      Tab (n + 1) b (fun i => if 0 < i then
        c i * (ps.map (fun p => geom (p ^ k : Nat) (i.factorization p))).prod else 0) := by
  induction ps generalizing block c with
  | nil => exact ⟨block, rfl, by simpa using h⟩
  | cons p ps ih =>
    have hp := hps p (by simp)
    unfold sigmaLoop
    dsimp only
    have hx : (1 : Int) < ((p ^ k : Nat) : Int) := by
      have := Nat.one_lt_pow (by omega : k ≠ 0) hp.one_lt
      exact_mod_cast this
    obtain ⟨b1, hb1, ht1⟩ := sigmaPowers_spec hp ((p ^ k : Nat) : Int) hx 1 (by omega) block c
      (h.congr (fun i hi => by simp [geom]))
    rw [pow_one, pow_one] at hb1
    rw [hb1]
    dsimp only
    obtain ⟨b, hb, ht⟩ := ih (fun q hq => hps q (by simp [hq])) b1 _ ht1
    refine ⟨b, hb, ht.congr ?_⟩
    intro i hi
    simp only [List.map_cons, List.prod_cons, ← mul_assoc]

open ArithmeticFunction in
theorem sigma_prod {n i k : Nat} (hi : 0 < i) (hin : i ≤ n) :
    ((primesUpTo n).map (fun p => geom (p ^ k : Nat) (i.factorization p))).prod =
      (sigma k i : Int) := by
  rw [prod_primesUpTo hi hin]
  · rw [(isMultiplicative_sigma (k := k)).multiplicative_factorization _ (by omega), Finsupp.prod,
      Nat.support_factorization]
    push_cast
    apply Finset.prod_congr rfl
    intro p hp
    have hpp := Nat.prime_of_mem_primeFactors hp
    rw [sigma_apply_prime_pow hpp, geom]
    push_cast
    apply Finset.sum_congr rfl
    intro l _
    rw [← pow_mul, mul_comm k l]
  · intro p hp hd
    rw [Nat.factorization_eq_zero_of_not_dvd hd]
    simp [geom]

/-! ## The hyperbola loops of tau_list and sigma_list -/

/-- What the pairs `(j, k)` with `j ≤ k`, `j * k = i` contribute for one `j`. -/
def hypTerm (d : Nat → Int) (g : Nat → Nat → Int) (i j : Nat) : Int :=
  (if j * j = i then d j else 0) + (if 0 < j ∧ j ∣ i ∧ j < i / j then g j (i / j) else 0)

theorem hyperbolaLoop_spec {n : Nat} (d : Nat → Int) (g : Nat → Nat → Int) (js : List Nat)
    (hjs : ∀ j ∈ js, 0 < j ∧ j * j ≤ n) (block : List Int) (t : Nat → Int)
    (h : Tab (n + 1) block t) :
    ∃ b, hyperbolaLoop n d g js block = .ok b ∧
      Tab (n + 1) b (fun i => t i + (js.map (hypTerm d g i)).sum) := by
  induction js generalizing block t with
  | nil => exact ⟨block, rfl, by simpa using h⟩
  | cons j js ih =>
    obtain ⟨hj, hjj⟩ := hjs j (by simp)
    unfold hyperbolaLoop
    obtain ⟨b1, hb1, ht1⟩ := forIdx_spec (n := n + 1) (fun _ v => v + d j) [j * j] (by simp)
      (fun i hi => by simp at hi; omega) block t h
    rw [hb1]
    dsimp only
    have hmem : ∀ i, i ∈ (pyRange (j + 1) (n / j + 1)).map (· * j) ↔ j ∣ i ∧ j < i / j ∧ i ≤ n := by
      intro i
      simp only [List.mem_map, mem_pyRange]
      constructor
      · rintro ⟨k, ⟨h1, h2⟩, rfl⟩
        rw [Nat.mul_div_cancel _ hj]
        refine ⟨dvd_mul_left _ _, by omega, ?_⟩
        have : k ≤ n / j := by omega
        rwa [Nat.le_div_iff_mul_le hj] at this
      · rintro ⟨h1, h2, h3⟩
        refine ⟨i / j, ⟨by omega, ?_⟩, Nat.div_mul_cancel h1⟩
        have := Nat.div_le_div_right (c := j) h3
        omega
    obtain ⟨b2, hb2, ht2⟩ := forIdx_spec (n := n + 1) (fun i v => v + g j (i / j))
      ((pyRange (j + 1) (n / j + 1)).map (· * j))
      (List.Nodup.map (fun a b hab => Nat.eq_of_mul_eq_mul_right hj hab)
        ((pyRange_sorted _ _).imp (fun h => Nat.ne_of_lt h)))
      (fun i hi => by have := (hmem i).1 hi; omega) b1 _ ht1
    rw [hb2]
    dsimp only
    obtain ⟨b, hb, ht⟩ := ih (fun q hq => hjs q (by simp [hq])) b2 _ ht2
    refine ⟨b, hb, ht.congr ?_⟩
    intro i hi
    simp only [List.map_cons, List.sum_cons, ← add_assoc]
    congr 1
    simp only [hmem, List.mem_singleton, hypTerm]
    by_cases h1 : j * j = i
    · subst h1
      have h2 : ¬ (j ∣ j * j ∧ j < j * j / j ∧ j * j ≤ n) := by
        rw [Nat.mul_div_cancel _ hj]; omega
      have h3 : ¬ (0 < j ∧ j ∣ j * j ∧ j < j * j / j) := by
        rw [Nat.mul_div_cancel _ hj]; omega
      rw [if_neg h2, if_neg h3]
      simp
    · have h1' : ¬ i = j * j := fun h => h1 h.symm
      by_cases h2 : j ∣ i ∧ j < i / j ∧ i ≤ n
      · rw [if_pos h2, if_neg h1, if_neg h1', if_pos ⟨hj, h2.1, h2.2.1⟩]; ring
      · rw [if_neg h2, if_neg h1, if_neg h1',
          if_neg (fun h => h2 ⟨h.2.1, h.2.2, by omega⟩)]; ring

/-- Pairing the divisors `j` and `i / j`. -/
theorem hyp_sum {n s i : Nat} (hi : 0 < i) (hin : i ≤ n) (hs : n < (s + 1) * (s + 1))
    (f : Nat → Int) (d : Nat → Int) (g : Nat → Nat → Int) (hd : ∀ j, d j = f j)
    (hg : ∀ j k, g j k = f j + f k) :
    ((pyRange 1 (s + 1)).map (hypTerm d g i)).sum = ∑ j ∈ i.divisors, f j := by
  have hnd : (pyRange 1 (s + 1)).Nodup := (pyRange_sorted _ _).imp (fun h => Nat.ne_of_lt h)
  rw [← List.sum_toFinset _ hnd]
  -- split the divisors at the square root
  have hsplit : ∑ j ∈ i.divisors, f j =
      ∑ j ∈ i.divisors.filter (fun j => j * j ≤ i), f j +
        ∑ j ∈ i.divisors.filter (fun j => ¬ j * j ≤ i), f j :=
    (Finset.sum_filter_add_sum_filter_not _ _ _).symm
  have hsw : ∑ j ∈ i.divisors.filter (fun j => ¬ j * j ≤ i), f j =
      ∑ j ∈ i.divisors.filter (fun j => j * j < i), f (i / j) := by
    refine Finset.sum_nbij' (fun j => i / j) (fun j => i / j) ?_ ?_ ?_ ?_ ?_
    · intro j hj
      simp only [Finset.mem_filter, Nat.mem_divisors] at hj ⊢
      obtain ⟨⟨⟨k, rfl⟩, -⟩, h2⟩ := hj
      have hj0 : 0 < j := Nat.pos_of_mul_pos_right hi
      rw [Nat.mul_div_cancel_left _ hj0]
      refine ⟨⟨dvd_mul_left _ _, by omega⟩, ?_⟩
      have : k < j := by
        by_contra hc
        exact h2 (Nat.mul_le_mul_left _ (by omega))
      have hk0 : 0 < k := Nat.pos_of_mul_pos_left hi
      exact Nat.mul_lt_mul_of_pos_right this hk0
    · intro j hj
      simp only [Finset.mem_filter, Nat.mem_divisors] at hj ⊢
      obtain ⟨⟨⟨k, rfl⟩, -⟩, h2⟩ := hj
      have hj0 : 0 < j := Nat.pos_of_mul_pos_right hi
      rw [Nat.mul_div_cancel_left _ hj0]
      refine ⟨⟨dvd_mul_left _ _, by omega⟩, ?_⟩
      have hjk : j < k := by
        by_contra hc
        have := Nat.mul_le_mul_left j (by omega : k ≤ j)
        omega
      have hk0 : 0 < k := by omega
      have := Nat.mul_lt_mul_of_pos_right hjk hk0
      omega
    · intro j hj
      simp only [Finset.mem_filter, Nat.mem_divisors] at hj
      exact Nat.div_div_self hj.1.1 (by omega)
    · intro j hj
      simp only [Finset.mem_filter, Nat.mem_divisors] at hj
      exact Nat.div_div_self hj.1.1 (by omega)
    · intro j hj
      simp only [Finset.mem_filter, Nat.mem_divisors] at hj
      rw [Nat.div_div_self hj.1.1 (by omega)]
  rw [hsplit, hsw]
  have h1 : ∑ j ∈ i.divisors.filter (fun j => j * j ≤ i), f j =
      ∑ j ∈ (pyRange 1 (s + 1)).toFinset, if j ∣ i ∧ j * j ≤ i then f j else 0 := by
    rw [← Finset.sum_filter]
    refine Finset.sum_congr ?_ (fun _ _ => rfl)
    ext j
    simp only [Finset.mem_filter, Nat.mem_divisors, List.mem_toFinset, mem_pyRange]
    constructor
    · rintro ⟨⟨h1, h2⟩, h3⟩
      have := Nat.pos_of_dvd_of_pos h1 hi
      refine ⟨⟨by omega, ?_⟩, h1, h3⟩
      by_contra hc
      have := Nat.mul_le_mul (by omega : s + 1 ≤ j) (by omega : s + 1 ≤ j)
      omega
    · rintro ⟨-, h1, h3⟩
      exact ⟨⟨h1, by omega⟩, h3⟩
  have h2 : ∑ j ∈ i.divisors.filter (fun j => j * j < i), f (i / j) =
      ∑ j ∈ (pyRange 1 (s + 1)).toFinset, if j ∣ i ∧ j * j < i then f (i / j) else 0 := by
    rw [← Finset.sum_filter]
    refine Finset.sum_congr ?_ (fun _ _ => rfl)
    ext j
    simp only [Finset.mem_filter, Nat.mem_divisors, List.mem_toFinset, mem_pyRange]
    constructor
    · rintro ⟨⟨h1, h2⟩, h3⟩
      have := Nat.pos_of_dvd_of_pos h1 hi
      refine ⟨⟨by omega, ?_⟩, h1, h3⟩
      by_contra hc
      have := Nat.mul_le_mul (by omega : s + 1 ≤ j) (by omega : s + 1 ≤ j)
      omega
    · rintro ⟨-, h1, h3⟩
      exact ⟨⟨h1, by omega⟩, h3⟩
  rw [h1, h2, ← Finset.sum_add_distrib]
  apply Finset.sum_congr rfl
  intro j hj
  simp only [List.mem_toFinset, mem_pyRange] at hj
  unfold hypTerm
  rw [hd]
  by_cases hji : j ∣ i
  · obtain ⟨k, rfl⟩ := hji
    have hj0 : 0 < j := by omega
    rw [Nat.mul_div_cancel_left _ hj0, hg]
    have hdv : j ∣ j * k := dvd_mul_right _ _
    simp only [hdv, hj0, true_and]
    rcases Nat.lt_trichotomy j k with h | h | h
    · have h3 : j * j < j * k := Nat.mul_lt_mul_of_pos_left h hj0
      rw [if_neg (by omega), if_pos h, if_pos (by omega), if_pos h3]; ring
    · subst h
      simp
    · have h3 : j * k < j * j := Nat.mul_lt_mul_of_pos_left h hj0
      rw [if_neg (by omega), if_neg (by omega), if_neg (by omega), if_neg (by omega)]
  · have h3 : ¬ j * j = i := fun h => hji (h ▸ dvd_mul_right _ _)
    simp [hji, h3]

/-! ## moebius_list -/

theorem moebiusInner_spec {n p : Nat} (is : List Nat) (hnd : is.Nodup) (hlt : ∀ i ∈ is, i < n)
    (block values : List Int) (g v : Nat → Int) (h : Tab n block g) (hv : Tab n values v) :
    ∃ b w, moebiusInner p is block values = .ok (b, w) ∧
      Tab n b (fun i => if i ∈ is then (if i % (p * p) = 0 then 0 else g i * -1) else g i) ∧
      Tab n w (fun i => if i ∈ is ∧ ¬ i % (p * p) = 0 then v i * p else v i) := by
  induction is generalizing block values g v with
  | nil => exact ⟨block, values, rfl, by simpa using h, by simpa using hv⟩
  | cons i is ih =>
    rw [List.nodup_cons] at hnd
    unfold moebiusInner
    rw [h.get i (hlt i (by simp)), hv.get i (hlt i (by simp))]
    dsimp only
    by_cases hpp : i % (p * p) = 0
    · rw [if_pos hpp]
      obtain ⟨b, w, hb, ht, hw⟩ := ih hnd.2 (fun j hj => hlt j (by simp [hj])) _ _ _ _
        (h.set i 0) hv
      refine ⟨b, w, hb, ht.congr ?_, hw.congr ?_⟩
      · intro j hj
        by_cases hji : j = i
        · subst hji; simp [hnd.1, hpp]
        · simp [hji]
      · intro j hj
        by_cases hji : j = i
        · subst hji; simp [hpp]
        · simp [hji]
    · rw [if_neg hpp]
      obtain ⟨b, w, hb, ht, hw⟩ := ih hnd.2 (fun j hj => hlt j (by simp [hj])) _ _ _ _
        (h.set i (g i * -1)) (hv.set i (v i * p))
      refine ⟨b, w, hb, ht.congr ?_, hw.congr ?_⟩
      · intro j hj
        by_cases hji : j = i
        · subst hji; simp [hnd.1, hpp]
        · simp [hji]
      · intro j hj
        by_cases hji : j = i
        · subst hji; simp [hnd.1, hpp]
        · simp [hji]

/-- The factor by which `p` changes the sign table at `i > 0`. -/
def muTerm (i p : Nat) : Int := if p ∣ i then (if p * p ∣ i then 0 else -1) else 1

/-- The factor by which `p` changes the table of values at `i > 0`. -/
def valTerm (i p : Nat) : Int := if p ∣ i ∧ ¬ p * p ∣ i then p else 1

theorem moebiusLoop_spec {n : Nat} (ps : List Nat) (hps : ∀ p ∈ ps, p.Prime)
    (block values : List Int) (g v : Nat → Int) (h : Tab (n + 1) block g)
    (hv : Tab (n + 1) values v) :
    ∃ b w, moebiusLoop n ps block values = .ok (b, w) ∧
      Tab (n + 1) b (fun i => if 0 < i then g i * (ps.map (muTerm i)).prod else g i) ∧
      Tab (n + 1) w (fun i => if 0 < i then v i * (ps.map (valTerm i)).prod else v i) := by
  induction ps generalizing block values g v with
  | nil => exact ⟨block, values, rfl, by simpa using h, by simpa using hv⟩
  | cons p ps ih =>
    have hp := hps p (by simp)
    unfold moebiusLoop
    obtain ⟨b1, w1, hb1, ht1, hw1⟩ := moebiusInner_spec (p := p) (pyRangeStep p (n + 1) p)
      (nodup_pyRangeStep hp.pos) (fun i hi => by have := (mem_multiples hp.pos).1 hi; omega)
      block values g v h hv
    rw [hb1]
    dsimp only
    obtain ⟨b, w, hb, ht, hw⟩ := ih (fun q hq => hps q (by simp [hq])) b1 w1 _ _ ht1 hw1
    refine ⟨b, w, hb, ht.congr ?_, hw.congr ?_⟩
    · intro i hi
      by_cases h0 : 0 < i
      · simp only [h0, if_true, List.map_cons, List.prod_cons, ← mul_assoc]
        congr 1
        simp only [mem_multiples hp.pos, muTerm, ← Nat.dvd_iff_mod_eq_zero]
        by_cases hd : p ∣ i
        · rw [if_pos ⟨h0, by omega, hd⟩, if_pos hd]
          split <;> simp
        · rw [if_neg (fun h => hd h.2.2), if_neg hd, mul_one]
      · simp only [h0, if_false, mem_multiples hp.pos, false_and]
    · intro i hi
      by_cases h0 : 0 < i
      · simp only [h0, if_true, List.map_cons, List.prod_cons, ← mul_assoc]
        congr 1
        simp only [mem_multiples hp.pos, valTerm, ← Nat.dvd_iff_mod_eq_zero]
        by_cases hd : p ∣ i ∧ ¬ p * p ∣ i
        · rw [if_pos ⟨⟨h0, by omega, hd.1⟩, hd.2⟩, if_pos hd]
        · rw [if_neg (fun h => hd ⟨h.1.2.2, h.2⟩), if_neg hd, mul_one]
      · simp only [h0, if_false, mem_multiples hp.pos, false_and]

theorem moebiusFix_spec {n : Nat} (values : List Int) (v : Nat → Int) (hv : Tab n values v)
    (is : List Nat) (hnd : is.Nodup) (hlt : ∀ i ∈ is, i < n) (block : List Int) (g : Nat → Int)
    (h : Tab n block g) :
    ∃ b, moebiusFix values is block = .ok b ∧
      Tab n b (fun i => if i ∈ is ∧ g i ≠ 0 ∧ v i < i then g i * -1 else g i) := by
  induction is generalizing block g with
  | nil => exact ⟨block, rfl, by simpa using h⟩
  | cons i is ih =>
    rw [List.nodup_cons] at hnd
    unfold moebiusFix
    rw [h.get i (hlt i (by simp)), hv.get i (hlt i (by simp))]
    dsimp only
    by_cases hc : g i ≠ 0 ∧ v i < i
    · rw [if_pos hc]
      obtain ⟨b, hb, ht⟩ := ih hnd.2 (fun j hj => hlt j (by simp [hj])) _ _ (h.set i (g i * -1))
      refine ⟨b, hb, ht.congr ?_⟩
      intro j hj
      by_cases hji : j = i
      · subst hji; simp [hnd.1, hc]
      · simp [hji]
    · rw [if_neg hc]
      obtain ⟨b, hb, ht⟩ := ih hnd.2 (fun j hj => hlt j (by simp [hj])) _ _ h
      refine ⟨b, hb, ht.congr ?_⟩
      intro j hj
      by_cases hji : j = i
      · subst hji
        rw [if_neg (fun h => hnd.1 h.1), if_neg (fun h => hc h.2)]
      · simp [hji]

/-- The values left in the two tables determine the Moebius function, once all primes `p` with
`p * p ≤ i` have been used. -/
theorem moebius_of_tables {i s : Nat} (hi : 0 < i) (hs : i < (s + 1) * (s + 1)) :
    (let m := ((primesUpTo s).map (muTerm i)).prod
     let v := ((primesUpTo s).map (valTerm i)).prod
     if m ≠ 0 ∧ v < i then m * -1 else m) = ArithmeticFunction.moebius i := by
  dsimp only
  have hnd : (primesUpTo s).Nodup := (primesUpTo_sorted s).imp (fun h => Nat.ne_of_lt h)
  by_cases hsf : Squarefree i
  · rw [ArithmeticFunction.moebius_apply_of_squarefree hsf]
    -- the prime factors up to `s` and the others
    have hnsq : ∀ p, p.Prime → ¬ p * p ∣ i := by
      intro p hp hd
      have := hsf p hd
      exact hp.one_lt.ne' (Nat.isUnit_iff.1 this)
    have hm : ((primesUpTo s).map (muTerm i)).prod =
        (-1) ^ (i.primeFactors.filter (· ≤ s)).card := by
      rw [← List.prod_toFinset _ hnd, ← Finset.prod_const]
      rw [← Finset.prod_subset (s₁ := i.primeFactors.filter (· ≤ s))]
      · apply Finset.prod_congr rfl
        intro p hp
        rw [Finset.mem_filter, Nat.mem_primeFactors] at hp
        rw [muTerm, if_pos hp.1.2.1, if_neg (hnsq p hp.1.1)]
      · intro p hp
        rw [Finset.mem_filter, Nat.mem_primeFactors] at hp
        rw [List.mem_toFinset, mem_primesUpTo]
        exact ⟨hp.1.1, hp.2⟩
      · intro p hp hnp
        rw [List.mem_toFinset, mem_primesUpTo] at hp
        rw [muTerm, if_neg]
        intro hd
        exact hnp (Finset.mem_filter.2 ⟨Nat.mem_primeFactors.2 ⟨hp.1, hd, by omega⟩, hp.2⟩)
    have hv : ((primesUpTo s).map (valTerm i)).prod =
        ((∏ p ∈ i.primeFactors.filter (· ≤ s), p : Nat) : Int) := by
      rw [← List.prod_toFinset _ hnd]
      push_cast
      rw [← Finset.prod_subset (s₁ := i.primeFactors.filter (· ≤ s))]
      · apply Finset.prod_congr rfl
        intro p hp
        rw [Finset.mem_filter, Nat.mem_primeFactors] at hp
        rw [valTerm, if_pos ⟨hp.1.2.1, hnsq p hp.1.1⟩]
      · intro p hp
        rw [Finset.mem_filter, Nat.mem_primeFactors] at hp
        rw [List.mem_toFinset, mem_primesUpTo]
        exact ⟨hp.1.1, hp.2⟩
      · intro p hp hnp
        rw [List.mem_toFinset, mem_primesUpTo] at hp
        rw [valTerm, if_neg]
        rintro ⟨hd, -⟩
        exact hnp (Finset.mem_filter.2 ⟨Nat.mem_primeFactors.2 ⟨hp.1, hd, by omega⟩, hp.2⟩)
    have hprod := Nat.prod_primeFactors_of_squarefree hsf
    have hsplit := Finset.prod_filter_mul_prod_filter_not i.primeFactors (· ≤ s) (fun p => p)
    rw [hprod] at hsplit
    have hcard : ArithmeticFunction.cardFactors i =
        (i.primeFactors.filter (· ≤ s)).card + (i.primeFactors.filter (fun p => ¬ p ≤ s)).card := by
      rw [Finset.card_filter_add_card_filter_not]
      have := (ArithmeticFunction.cardDistinctFactors_eq_cardFactors_iff_squarefree (by omega)).2 hsf
      rw [← this, ArithmeticFunction.cardDistinctFactors_apply, ← List.card_toFinset]
      rfl
    have hB : (i.primeFactors.filter (fun p => ¬ p ≤ s)).card ≤ 1 := by
      rw [Finset.card_le_one]
      intro p hp q hq
      by_contra hpq
      rw [Finset.mem_filter, Nat.mem_primeFactors] at hp hq
      have hcop : Nat.Coprime p q := (Nat.coprime_primes hp.1.1 hq.1.1).2 hpq
      have hd := Nat.le_of_dvd hi (hcop.mul_dvd_of_dvd_of_dvd hp.1.2.1 hq.1.2.1)
      have := Nat.mul_le_mul (by omega : s + 1 ≤ p) (by omega : s + 1 ≤ q)
      omega
    have hApos : 0 < ∏ p ∈ i.primeFactors.filter (· ≤ s), p := by
      apply Finset.prod_pos
      intro p hp
      rw [Finset.mem_filter] at hp
      exact (Nat.prime_of_mem_primeFactors hp.1).pos
    rw [hm, hv, hcard]
    have hne : ((-1 : Int)) ^ (i.primeFactors.filter (· ≤ s)).card ≠ 0 := pow_ne_zero _ (by norm_num)
    rcases Nat.lt_or_ge (i.primeFactors.filter (fun p => ¬ p ≤ s)).card 1 with h0 | h1
    · have h00 : (i.primeFactors.filter (fun p => ¬ p ≤ s)) = ∅ := by
        rw [← Finset.card_eq_zero]; omega
      rw [h00, Finset.prod_empty, mul_one] at hsplit
      rw [h00, hsplit]
      simp
    · have h11 : (i.primeFactors.filter (fun p => ¬ p ≤ s)).card = 1 := by omega
      obtain ⟨q, hq⟩ := Finset.card_eq_one.1 h11
      have hqp : q.Prime := by
        have : q ∈ i.primeFactors.filter (fun p => ¬ p ≤ s) := by rw [hq]; simp
        rw [Finset.mem_filter] at this
        exact Nat.prime_of_mem_primeFactors this.1
      rw [hq, Finset.prod_singleton] at hsplit
      rw [h11, pow_succ, if_pos]
      refine ⟨hne, ?_⟩
      have := hqp.one_lt
      have h3 : (∏ p ∈ i.primeFactors.filter (· ≤ s), p) < i := by nlinarith
      exact_mod_cast h3
  · rw [ArithmeticFunction.moebius_eq_zero_of_not_squarefree hsf]
    have : ((primesUpTo s).map (muTerm i)).prod = 0 := by
      rw [List.prod_eq_zero_iff]
      rw [Nat.squarefree_iff_prime_squarefree] at hsf
      push Not at hsf
      obtain ⟨p, hp, hd⟩ := hsf
      rw [List.mem_map]
      refine ⟨p, mem_primesUpTo.2 ⟨hp, ?_⟩, ?_⟩
      · by_contra hc
        have h1 := Nat.le_of_dvd hi hd
        have := Nat.mul_le_mul (by omega : s + 1 ≤ p) (by omega : s + 1 ≤ p)
        omega
      · rw [muTerm, if_pos ((dvd_mul_right p p).trans hd), if_pos hd]
    rw [this]; simp

end Rosemary.Tables
