import Verif.Model.Enumeration
import Verif.Lemmas.SetPartitions
import Verif.Props.ArithFunctions
import Mathlib.Data.Nat.Choose.Basic
import Mathlib.Data.Nat.Choose.Factorization
import Mathlib.Data.List.Permutation

/-!
# Lemmas on the counting functions
-/

namespace Rosemary.Enumeration

/-! ## bell_number -/

theorem bellStep_fold (B : List Nat) (i : Nat) (hi : 1 ≤ i) (k : Nat) (hk : k ≤ i) :
    (List.range' 1 k).foldl (bellStep B i) (1, 0) =
      ((i - 1).choose k, ∑ t ∈ Finset.range k, (i - 1).choose t * B.getD (i - 1 - t) 0) := by
  induction k with
  | zero => simp
  | succ k ih =>
    rw [List.range'_1_concat, List.foldl_append, ih (by omega), List.foldl_cons, List.foldl_nil, bellStep,
      Finset.sum_range_succ]
    refine Prod.ext ?_ ?_
    · show (i - 1).choose k * (i - (1 + k)) / (1 + k) = (i - 1).choose (k + 1)
      have := Nat.choose_succ_right_eq (i - 1) k
      rw [show i - (1 + k) = i - 1 - k by omega, ← this, Nat.add_comm 1 k]
      exact Nat.mul_div_cancel _ (by omega)
    · show _ + (i - 1).choose k * B.getD (i - (1 + k)) 0 = _
      rw [show i - (1 + k) = i - 1 - k by omega]

theorem bellRow_fold (n i : Nat) (hi : i ≤ n) :
    ((List.range' 1 i).foldl bellRow ((List.replicate (n + 1) 0).set 0 1)).length = n + 1 ∧
    ∀ j, j ≤ i → ((List.range' 1 i).foldl bellRow ((List.replicate (n + 1) 0).set 0 1)).getD j 0 = j.bell := by
  induction i with
  | zero =>
    refine ⟨by simp, fun j hj => ?_⟩
    obtain rfl : j = 0 := by omega
    simp
  | succ i ih =>
    obtain ⟨h1, h2⟩ := ih (by omega)
    rw [List.range'_1_concat, List.foldl_append, List.foldl_cons, List.foldl_nil]
    generalize (List.range' 1 i).foldl bellRow ((List.replicate (n + 1) 0).set 0 1) = B at *
    refine ⟨by simp [bellRow, h1], fun j hj => ?_⟩
    rw [bellRow, List.getD_eq_getElem?_getD, List.getElem?_set]
    by_cases hji : 1 + i = j
    · rw [if_pos hji, if_pos (by omega), bellStep_fold B (1 + i) (by omega) _ le_rfl]
      show (∑ t ∈ Finset.range (1 + i), _) = _
      rw [← hji, Nat.add_comm 1 i, Nat.bell_succ, ← Nat.range_succ_eq_Iic]
      refine Finset.sum_congr rfl fun t ht => ?_
      rw [Nat.add_sub_cancel, h2 (i - t) (by omega)]
    · rw [if_neg hji, ← List.getD_eq_getElem?_getD, h2 j (by omega)]

theorem bellNumber_eq (n : Nat) : bellNumber n = .ok n.bell := by
  rw [bellNumber, if_neg (by omega)]
  have := (bellRow_fold n n le_rfl).2 n le_rfl
  simp only [Int.toNat_natCast]
  rw [this]

/-! ## binomial -/

theorem foldl_mul_range (a : Int) (k : Nat) :
    (intRange a (a + k)).foldl (fun pp e => pp * e) 1 = ∏ t ∈ Finset.range k, (a + t) := by
  rw [intRange, show (a + k - a).toNat = k by omega]
  induction k with
  | zero => simp
  | succ k ih =>
    rw [List.range_succ, List.map_append, List.foldl_append, ih, Finset.prod_range_succ]
    simp

theorem foldl_fdiv_range (p : Nat) (k : Nat) :
    (intRange 2 (2 + k)).foldl (fun pp e => Int.fdiv pp e) (p : Int) = ((p / (k + 1).factorial : Nat) : Int) := by
  rw [intRange, show ((2 : Int) + k - 2).toNat = k by omega]
  induction k with
  | zero => simp
  | succ k ih =>
    rw [List.range_succ, List.map_append, List.foldl_append, ih]
    simp only [List.map_cons, List.map_nil, List.foldl_cons, List.foldl_nil]
    rw [Int.fdiv_eq_ediv_of_nonneg _ (by omega), show (2 : Int) + k = ((k + 2 : Nat) : Int) by push_cast; ring,
      ← Int.natCast_ediv, Nat.div_div_eq_div_mul, Nat.factorial_succ (k + 1), Nat.mul_comm]

theorem binomial_half (n k : Nat) (hk : k ≤ n) :
    (intRange 2 ((k : Int) + 1)).foldl (fun pp e => Int.fdiv pp e)
      ((intRange ((n : Int) - k + 1) (n + 1)).foldl (fun pp e => pp * e) 1) = n.choose k := by
  have h1 := foldl_mul_range ((n : Int) - k + 1) k
  rw [show (n : Int) - k + 1 + k = n + 1 by ring] at h1
  have h2 : (∏ t ∈ Finset.range k, ((n : Int) - k + 1 + t)) = ((n.descFactorial k : Nat) : Int) := by
    rw [Nat.descFactorial_eq_prod_range, ← Finset.prod_range_reflect]
    push_cast
    refine Finset.prod_congr rfl fun t ht => ?_
    rw [Finset.mem_range] at ht
    omega
  rw [h1, h2]
  cases k with
  | zero => simp [intRange]
  | succ k =>
    have := foldl_fdiv_range (n.descFactorial (k + 1)) k
    rw [show ((k + 1 : Nat) : Int) + 1 = 2 + k by push_cast; ring, this, Nat.choose_eq_descFactorial_div_factorial]

theorem binomial_eq (n k : Nat) (hk : k ≤ n) : binomial n k = n.choose k := by
  rw [binomial]
  rcases le_total k (n - k) with h | h
  · rw [show min (k : Int) ((n : Int) - k) = k by omega]
    exact binomial_half n k hk
  · rw [show min (k : Int) ((n : Int) - k) = ((n - k : Nat) : Int) by omega]
    rw [← Nat.choose_symm hk]
    exact binomial_half n (n - k) (by omega)

theorem binomial_outside (n k : Int) (hn : 0 ≤ n) (h : k < 0 ∨ n < k) : binomial n k = 1 := by
  have hm : min k (n - k) < 0 := by omega
  rw [binomial]
  generalize min k (n - k) = j at *
  have h1 : intRange (n - j + 1) (n + 1) = [] := by
    rw [intRange, show (n + 1 - (n - j + 1)).toNat = 0 by omega]; rfl
  have h2 : intRange 2 (j + 1) = [] := by
    rw [intRange, show (j + 1 - 2).toNat = 0 by omega]; rfl
  rw [h1, h2]
  rfl

/-! ## multinomial -/

variable {ι : Type} [DecidableEq ι]

/-- The arrangements of `l`. -/
def arrangements (l : List ι) : Finset (List ι) := l.permutations.toFinset

theorem mem_arrangements {l w : List ι} : w ∈ arrangements l ↔ w.Perm l := by
  rw [arrangements, List.mem_toFinset, List.mem_permutations]

theorem arrangements_rec {l : List ι} (h : l ≠ []) :
    arrangements l = l.toFinset.biUnion (fun x => (arrangements (l.erase x)).image (x :: ·)) := by
  ext w
  rw [mem_arrangements, Finset.mem_biUnion]
  constructor
  · intro hw
    cases w with
    | nil => exact absurd hw.symm.eq_nil h
    | cons x w =>
      have hx : x ∈ l := hw.mem_iff.1 List.mem_cons_self
      refine ⟨x, List.mem_toFinset.2 hx, Finset.mem_image.2 ⟨w, mem_arrangements.2 ?_, rfl⟩⟩
      exact (List.cons_perm_iff_perm_erase.1 hw).2
  · rintro ⟨x, hx, hw⟩
    obtain ⟨v, hv, rfl⟩ := Finset.mem_image.1 hw
    exact List.cons_perm_iff_perm_erase.2 ⟨List.mem_toFinset.1 hx, mem_arrangements.1 hv⟩

theorem card_arrangements_rec {l : List ι} (h : l ≠ []) :
    (arrangements l).card = ∑ x ∈ l.toFinset, (arrangements (l.erase x)).card := by
  rw [arrangements_rec h, Finset.card_biUnion]
  · refine Finset.sum_congr rfl fun x _ => Finset.card_image_of_injective _ fun a b h => ?_
    exact (List.cons.inj h).2
  · intro x _ y _ hne
    change Disjoint _ _
    rw [Finset.disjoint_left]
    intro w hw hw'
    obtain ⟨v, -, rfl⟩ := Finset.mem_image.1 hw
    obtain ⟨u, -, hu⟩ := Finset.mem_image.1 hw'
    exact hne (List.cons.inj hu).1.symm

/-- The product of the factorials of the multiplicities over a set containing the entries. -/
theorem card_arrangements_mul (n : Nat) : ∀ (l : List ι), l.length = n → ∀ S : Finset ι, l.toFinset ⊆ S →
    (arrangements l).card * ∏ x ∈ S, (l.count x).factorial = n.factorial := by
  induction n with
  | zero =>
    intro l hl S _
    obtain rfl := List.length_eq_zero_iff.1 hl
    simp [arrangements]
  | succ n ih =>
    intro l hl S hS
    have hne : l ≠ [] := by rintro rfl; simp at hl
    rw [card_arrangements_rec hne, Finset.sum_mul]
    have h1 : ∀ x ∈ l.toFinset, (arrangements (l.erase x)).card * ∏ y ∈ S, (l.count y).factorial
        = n.factorial * l.count x := by
      intro x hx
      have hxl := List.mem_toFinset.1 hx
      have hxS := hS hx
      have hlen : (l.erase x).length = n := by rw [List.length_erase_of_mem hxl]; omega
      have hsub : (l.erase x).toFinset ⊆ S := fun y hy => by
        rw [List.mem_toFinset] at hy
        exact hS (List.mem_toFinset.2 (List.mem_of_mem_erase hy))
      rw [← ih (l.erase x) hlen S hsub, ← Finset.mul_prod_erase S _ hxS, ← Finset.mul_prod_erase S _ hxS]
      have hprod : ∏ y ∈ S.erase x, ((l.erase x).count y).factorial = ∏ y ∈ S.erase x, (l.count y).factorial := by
        refine Finset.prod_congr rfl fun y hy => ?_
        rw [List.count_erase_of_ne (Finset.ne_of_mem_erase hy)]
      have hpos : 0 < l.count x := List.count_pos_iff.2 hxl
      rw [hprod, List.count_erase_self]
      obtain ⟨c, hc⟩ : ∃ c, l.count x = c + 1 := ⟨l.count x - 1, by omega⟩
      rw [hc, Nat.add_sub_cancel, Nat.factorial_succ]
      ring
    rw [Finset.sum_congr rfl h1, ← Finset.mul_sum, List.sum_toFinset_count_eq_length, hl]
    rw [Nat.factorial_succ, Nat.mul_comm]

theorem multinomialDen_eq (ks : List Nat) (den : Nat) :
    multinomialDen (ks.map (fun k : Nat => (k : Int))) den = .ok (den * (ks.map Nat.factorial).prod) := by
  induction ks generalizing den with
  | nil => simp [multinomialDen]
  | cons k ks ih =>
    rw [List.map_cons, multinomialDen, Props.C31_factorial]
    dsimp only
    rw [ih, List.map_cons, List.prod_cons, Nat.mul_assoc]

end Rosemary.Enumeration
