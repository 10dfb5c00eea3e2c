import Verif.Model.Enumeration
import Verif.Lemmas.Eta
import Mathlib.Combinatorics.Enumerative.Partition.Glaisher
import Mathlib.Topology.Instances.Int

/-!
# The pentagonal recurrence for the number of partitions
-/

namespace Rosemary.Enumeration

open Finset

/-- The number of partitions of `n`. -/
def pcount (n : Nat) : ℤ := Fintype.card n.Partition

section
open PowerSeries PowerSeries.WithPiTopology

theorem genfun_mul : (PowerSeries.mk pcount : PowerSeries ℤ) * pentagonalSeries ℤ = 1 := by
  have h1 := Nat.Partition.hasProd_powerSeriesMk_card_restricted ℤ (fun _ => True)
  have h2 := PowerSeries.WithPiTopology.hasProd_one_sub_X_pow ℤ
  have h3 := h1.mul h2
  have h4 : (fun i : ℕ => (if True then ∑' j : ℕ, (X : PowerSeries ℤ) ^ ((i + 1) * j) else 1) *
      (1 - X ^ (i + 1))) = fun _ => 1 := by
    funext i
    rw [if_pos trivial]
    simp_rw [pow_mul]
    exact tsum_pow_mul_one_sub_of_constantCoeff_eq_zero (by simp)
  have h3' : HasProd (fun _ : ℕ => (1 : PowerSeries ℤ))
      ((PowerSeries.mk fun n => ((Nat.Partition.restricted n (fun _ => True)).card : ℤ)) * pentagonalSeries ℤ) := by
    rw [← h4]; exact h3
  have h5 := h3'.unique hasProd_one
  have h6 : (PowerSeries.mk fun n => ((Nat.Partition.restricted n (fun _ => True)).card : ℤ)) =
      PowerSeries.mk pcount := by
    ext n
    simp [Nat.Partition.restricted, pcount]
  rw [← h6, h5]

end

theorem pcount_zero : pcount 0 = 1 := by decide +kernel
theorem pcount_one : pcount 1 = 1 := by decide +kernel

/-- `k(3k-1)/2`. -/
def g (k : Nat) : Nat := k * (3 * k - 1) / 2
/-- `k(3k+1)/2`. -/
def h (k : Nat) : Nat := k * (3 * k + 1) / 2

theorem two_g (k : Nat) (hk : 1 ≤ k) : 2 * g k = k * (3 * k - 1) := Polys.two_mul_g k hk
theorem two_h (k : Nat) : 2 * h k = k * (3 * k + 1) := Polys.two_mul_h k

theorem h_eq (k : Nat) : h k = g k + k := by
  rcases Nat.eq_zero_or_pos k with rfl | hk
  · rfl
  · have h1 := two_g k hk
    have h2 := two_h k
    obtain ⟨j, rfl⟩ : ∃ j, k = j + 1 := ⟨k - 1, by omega⟩
    rw [show 3 * (j + 1) - 1 = 3 * j + 2 by omega] at h1
    nlinarith

theorem g_succ (k : Nat) : g (k + 1) = h k + (2 * k + 1) := by
  have h1 := two_g (k + 1) (by omega)
  have h2 := two_h k
  rw [show 3 * (k + 1) - 1 = 3 * k + 2 by omega] at h1
  nlinarith

theorem g_mono {a b : Nat} (hab : a ≤ b) : g a ≤ g b := by
  induction hab with
  | refl => exact le_rfl
  | step _ ih => exact ih.trans (by rw [g_succ, h_eq]; omega)

/-- Summation against the pentagonal coefficients. -/
theorem pent_sum (f : Nat → ℤ) (K : Nat) :
    ∑ b ∈ range (g (K + 1)), (PowerSeries.pentagonalSeries ℤ).coeff b * f b =
      f 0 + ∑ j ∈ range K, (-1) ^ (j + 1) * (f (g (j + 1)) + f (h (j + 1))) := by
  induction K with
  | zero =>
    have h0 := Polys.pent_coeff_neg 0
    simp at h0
    simp [g, h0]
  | succ K ih =>
    have hle : g (K + 1) ≤ g (K + 1 + 1) := g_mono (by omega)
    rw [← sum_range_add_sum_Ico _ hle, ih, sum_range_succ, add_assoc]
    congr 2
    have e1 := h_eq (K + 1)
    have e2 := g_succ (K + 1)
    have hsub : ({g (K + 1), h (K + 1)} : Finset Nat) ⊆ Ico (g (K + 1)) (g (K + 1 + 1)) := by
      intro x hx
      rw [mem_insert, mem_singleton] at hx
      rw [mem_Ico]
      rcases hx with rfl | rfl <;> omega
    rw [← sum_subset hsub]
    · rw [sum_pair (by omega)]
      have c1 := Polys.pent_coeff_pos (K + 1) (by omega)
      have c2 := Polys.pent_coeff_neg (K + 1)
      have hs : (if (K + 1) % 2 = 1 then -1 else 1 : ℤ) = (-1) ^ (K + 1) := by
        rcases Nat.even_or_odd (K + 1) with he | ho
        · rw [he.neg_one_pow, if_neg (by rw [Nat.even_iff] at he; omega)]
        · rw [ho.neg_one_pow, if_pos (by rw [Nat.odd_iff] at ho; omega)]
      rw [hs] at c1 c2
      change (PowerSeries.pentagonalSeries ℤ).coeff (g (K + 1)) = _ at c1
      change (PowerSeries.pentagonalSeries ℤ).coeff (h (K + 1)) = _ at c2
      rw [c1, c2]
      ring
    · intro x hx hx'
      rw [mem_Ico] at hx
      rw [mem_insert, mem_singleton] at hx'
      have : (PowerSeries.pentagonalSeries ℤ).coeff x = 0 := by
        refine Polys.pent_coeff_between (K + 1) x (by omega) ?_
        change (g (K + 1) < x ∧ x < h (K + 1)) ∨ (h (K + 1) < x ∧ x < g (K + 1 + 1))
        omega
      rw [this, zero_mul]

/-- The recurrence of the code. -/
theorem pcount_rec (m K : Nat) (hm : 1 ≤ m) (hK : m < g (K + 1)) :
    pcount m = ∑ j ∈ range K, (-1) ^ (j + 2) * ((if g (j + 1) ≤ m then pcount (m - g (j + 1)) else 0) +
      if h (j + 1) ≤ m then pcount (m - h (j + 1)) else 0) := by
  have h1 := congrArg (PowerSeries.coeff m) genfun_mul
  rw [mul_comm, PowerSeries.coeff_mul, PowerSeries.coeff_one, if_neg (by omega),
    Nat.sum_antidiagonal_eq_sum_range_succ_mk] at h1
  have h2 : ∑ b ∈ range (g (K + 1)), (PowerSeries.pentagonalSeries ℤ).coeff b *
      (if b ≤ m then pcount (m - b) else 0) = 0 := by
    refine Eq.trans ?_ h1
    rw [← sum_subset (s₁ := range m.succ) (fun x hx => by rw [mem_range] at *; omega)]
    · refine sum_congr rfl fun x hx => ?_
      rw [mem_range] at hx
      rw [if_pos (by omega), PowerSeries.coeff_mk]
    · intro x _ hx
      rw [mem_range] at hx
      rw [if_neg (by omega), mul_zero]
  rw [pent_sum, if_pos (by omega), Nat.sub_zero] at h2
  have h3 : ∑ j ∈ range K, (-1) ^ (j + 2) * ((if g (j + 1) ≤ m then pcount (m - g (j + 1)) else 0) +
      if h (j + 1) ≤ m then pcount (m - h (j + 1)) else 0) =
      - ∑ j ∈ range K, (-1) ^ (j + 1) * ((if g (j + 1) ≤ m then pcount (m - g (j + 1)) else 0) +
      if h (j + 1) ≤ m then pcount (m - h (j + 1)) else 0) := by
    rw [← sum_neg_distrib]
    refine sum_congr rfl fun j _ => ?_
    rw [pow_succ]
    ring
  rw [h3]
  linarith

theorem partitionInner_eq (values : List Int) (m k : Nat) (hk : ∀ j, 1 ≤ j → j ≤ k → g j ≤ m) (total : Int) :
    partitionInner values m k ((-1) ^ (k + 1)) total = .ok (total + ∑ j ∈ range k, (-1) ^ (j + 2) *
      (values.getD (m - g (j + 1)) 0 + if h (j + 1) ≤ m then values.getD (m - h (j + 1)) 0 else 0)) := by
  induction k generalizing total with
  | zero => simp [partitionInner]
  | succ k ih =>
    have e1 : Int.fdiv (((k : Int) + 1) * (3 * ((k : Int) + 1) - 1)) 2 = (g (k + 1) : Int) := by
      have := two_g (k + 1) (by omega)
      rw [show 3 * (k + 1) - 1 = 3 * k + 2 by omega] at this
      have h' : ((k : Int) + 1) * (3 * ((k : Int) + 1) - 1) = 2 * (g (k + 1) : Int) := by
        have := congrArg (Nat.cast : Nat → Int) this
        push_cast at this
        rw [this]; ring
      rw [h', Int.fdiv_eq_ediv_of_nonneg _ (by omega)]
      omega
    have e2 : Int.fdiv (((k : Int) + 1) * (3 * ((k : Int) + 1) + 1)) 2 = (h (k + 1) : Int) := by
      have := two_h (k + 1)
      have h' : ((k : Int) + 1) * (3 * ((k : Int) + 1) + 1) = 2 * (h (k + 1) : Int) := by
        have := congrArg (Nat.cast : Nat → Int) this
        push_cast at this
        rw [this]
      rw [h', Int.fdiv_eq_ediv_of_nonneg _ (by omega)]
      omega
    have hg := hk (k + 1) (by omega) le_rfl
    rw [partitionInner]
    dsimp only
    rw [e1, e2, if_neg (by omega), show (-1 : Int) ^ (k + 1 + 1) * -1 = (-1) ^ (k + 1) by
      rw [pow_succ]; ring, ih (fun j h1 h2 => hk j h1 (by omega)), sum_range_succ]
    congr 1
    have t1 : ((m : Int) - (g (k + 1) : Int)).toNat = m - g (k + 1) := by omega
    have t2 : ((m : Int) - (h (k + 1) : Int)).toNat = m - h (k + 1) := by omega
    rw [t1, t2]
    by_cases hh : h (k + 1) ≤ m
    · rw [if_pos hh, if_neg (by omega)]; ring
    · rw [if_neg hh, if_pos (by omega)]; ring

theorem partitionLoop_spec (maxIdx : Nat → Nat) (n : Nat)
    (hmax : ∀ m, 2 ≤ m → m ≤ n → ∀ k, 1 ≤ k → (g k ≤ m ↔ k ≤ maxIdx m)) (c : Nat) :
    ∀ (a : Nat) (values : List Int), 2 ≤ a → a + c ≤ n + 1 → values.length = n + 1 →
      (∀ j, j < a → values.getD j 0 = pcount j) →
      ∃ out, partitionLoop maxIdx (List.range' a c) values = .ok out ∧ out.length = n + 1 ∧
        ∀ j, j < a + c → out.getD j 0 = pcount j := by
  induction c with
  | zero =>
    intro a values h1 h2 h3 h4
    exact ⟨values, rfl, h3, h4⟩
  | succ c ih =>
    intro a values h1 h2 h3 h4
    have hk : ∀ j, 1 ≤ j → j ≤ maxIdx a → g j ≤ a := fun j hj hj' => (hmax a h1 (by omega) j hj).2 hj'
    rw [List.range'_succ, partitionLoop, partitionInner_eq values a (maxIdx a) hk]
    dsimp only
    have hval : (0 : Int) + ∑ j ∈ range (maxIdx a), (-1) ^ (j + 2) *
        (values.getD (a - g (j + 1)) 0 + if h (j + 1) ≤ a then values.getD (a - h (j + 1)) 0 else 0) = pcount a := by
      have hK : a < g (maxIdx a + 1) := by
        by_contra hc
        have := (hmax a h1 (by omega) (maxIdx a + 1) (by omega)).1 (by omega)
        omega
      rw [pcount_rec a (maxIdx a) (by omega) hK, zero_add]
      refine sum_congr rfl fun j hj => ?_
      rw [mem_range] at hj
      have hgj := hk (j + 1) (by omega) (by omega)
      have hpos : 1 ≤ g (j + 1) := by rw [g_succ]; omega
      have hpos' : 1 ≤ h (j + 1) := by rw [h_eq]; omega
      rw [if_pos hgj, h4 _ (by omega)]
      by_cases hh : h (j + 1) ≤ a
      · rw [if_pos hh, if_pos hh, h4 _ (by omega)]
      · rw [if_neg hh, if_neg hh]
    rw [hval]
    obtain ⟨out, o1, o2, o3⟩ := ih (a + 1) (values.set a (pcount a)) (by omega) (by omega) (by simp [h3]) (by
      intro j hj
      rw [List.getD_eq_getElem?_getD, List.getElem?_set]
      by_cases hja : a = j
      · rw [if_pos hja, if_pos (by omega), hja]; rfl
      · rw [if_neg hja, ← List.getD_eq_getElem?_getD, h4 j (by omega)])
    exact ⟨out, o1, o2, fun j hj => o3 j (by omega)⟩

end Rosemary.Enumeration
