import Verif.Lemmas.MaxDivisors
import Verif.Spec.NumberTheory
import Mathlib.Data.Finset.Max
import Mathlib.Algebra.Order.BigOperators.Ring.Finset
import Mathlib.NumberTheory.ArithmeticFunction.Misc

/-!
# Optimality of the candidates of `maximize_divisors`
-/

namespace Rosemary.NtMisc

open Rosemary.Primality Finset

theorem coprime_powProd {p : Nat} (hp : p.Prime) (ps es : List Nat) (hps : ∀ q ∈ ps, q.Prime ∧ q ≠ p) :
    p.Coprime (powProd ps es) := by
  induction ps generalizing es with
  | nil => cases es <;> simp [powProd]
  | cons q ps ih =>
    cases es with
    | nil => simp [powProd]
    | cons e es =>
      rw [powProd]
      refine Nat.Coprime.mul_right (Nat.Coprime.pow_right _ ?_) (ih es (fun x hx => hps x (List.mem_cons_of_mem _ hx)))
      exact (Nat.coprime_primes hp (hps q (by simp)).1).2 (hps q (by simp)).2.symm

theorem card_divisors_powProd (ps es : List Nat) (hps : ∀ q ∈ ps, q.Prime) (hnd : ps.Nodup)
    (hlen : es.length ≤ ps.length) : (powProd ps es).divisors.card = tauProd es := by
  induction ps generalizing es with
  | nil =>
    have : es = [] := List.length_eq_zero_iff.1 (by simpa using hlen)
    subst this
    simp [powProd, tauProd]
  | cons p ps ih =>
    cases es with
    | nil => simp [powProd, tauProd]
    | cons e es =>
      have hp := hps p (by simp)
      rw [powProd, Nat.Coprime.card_divisors_mul, ih es (fun x hx => hps x (List.mem_cons_of_mem _ hx))
        (List.nodup_cons.1 hnd).2 (by simpa using hlen), Nat.divisors_prime_pow hp]
      · simp [tauProd]
      · refine Nat.Coprime.pow_left _ (coprime_powProd hp ps es (fun q hq => ⟨hps q (List.mem_cons_of_mem _ hq), ?_⟩))
        rintro rfl
        exact (List.nodup_cons.1 hnd).1 hq

/-- Abel summation for products: if the partial products of `P` are below those of `Q`, the same holds with
non-increasing exponents. -/
theorem prod_pow_le (P Q : Nat → Nat) (r : Nat) (f : Nat → Nat)
    (hPQ : ∀ r' ≤ r, ∏ i ∈ range r', P i ≤ ∏ i ∈ range r', Q i) (hf : ∀ i j, i ≤ j → j < r → f j ≤ f i) :
    ∏ i ∈ range r, P i ^ f i ≤ ∏ i ∈ range r, Q i ^ f i := by
  induction r generalizing f with
  | zero => simp
  | succ r ih =>
    have key : ∀ R : Nat → Nat, ∏ i ∈ range (r + 1), R i ^ f i =
        (∏ i ∈ range r, R i ^ (f i - f r)) * (∏ i ∈ range (r + 1), R i) ^ f r := by
      intro R
      rw [prod_range_succ, prod_range_succ, mul_pow, ← mul_assoc, ← prod_pow, ← prod_mul_distrib]
      congr 1
      refine prod_congr rfl (fun i hi => ?_)
      rw [← pow_add]
      congr 1
      have := hf i r (le_of_lt (mem_range.1 hi)) (by omega)
      omega
    rw [key P, key Q]
    refine Nat.mul_le_mul (ih (fun i => f i - f r) (fun r' hr' => hPQ r' (by omega)) ?_) (Nat.pow_le_pow_left (hPQ _ (le_refl _)) _)
    intro i j hij hj
    have := hf i j hij (by omega)
    omega

theorem getD_eq (l : List Nat) (d : Nat) {i : Nat} (h : i < l.length) : l.getD i d = l[i] := by
  rw [List.getD_eq_getElem?_getD, List.getElem?_eq_getElem h, Option.getD_some]

theorem prod_range_getD (l : List Nat) : ∏ i ∈ range l.length, l.getD i 1 = l.prod := by
  induction l with
  | nil => simp
  | cons a l ih =>
    rw [List.length_cons, prod_range_succ', List.prod_cons, ← ih, mul_comm]
    simp

/-- The first `r` primes have the smallest product among `r` distinct primes. -/
theorem prod_table_le (T : List Nat) (hT : IsPrimeTable T) (r : Nat) (hr : r ≤ T.length) (s : Finset Nat)
    (hs : ∀ q ∈ s, q.Prime) (hc : s.card = r) : ∏ i ∈ range r, T.getD i 1 ≤ ∏ q ∈ s, q := by
  induction r generalizing s with
  | zero =>
    rw [card_eq_zero.1 hc]
    simp
  | succ r ih =>
    have hne : s.Nonempty := card_pos.1 (by omega)
    obtain ⟨l, hl, -, hmem⟩ := hT.last
    set M := s.max' hne with hM
    have hMs : M ∈ s := max'_mem s hne
    rw [prod_range_succ, ← prod_erase_mul s _ hMs]
    refine Nat.mul_le_mul (ih (by omega) (s.erase M) (fun q hq => hs q (mem_of_mem_erase hq)) ?_) ?_
    · rw [card_erase_of_mem hMs]; omega
    · rw [getD_eq _ _ (by omega)]
      by_contra hlt
      push Not at hlt
      have hsub : s ⊆ (T.take r).toFinset := by
        intro x hx
        rw [List.mem_toFinset]
        have hxM : x ≤ M := le_max' s x hx
        have hTr : T[r] ∈ T := List.getElem_mem _
        have hTl := ((hmem _).1 hTr).2
        have hxT : x ∈ T := (hmem x).2 ⟨hs x hx, by omega⟩
        obtain ⟨i, hi, hix⟩ := List.getElem_of_mem hxT
        have hir : i < r := by
          by_contra hc'
          rcases Nat.lt_or_ge r i with h | h
          · have := List.pairwise_iff_getElem.1 hT.sorted r i (by omega) hi h
            omega
          · have : i = r := by omega
            subst this
            omega
        rw [List.mem_take_iff_getElem]
        exact ⟨i, by omega, hix⟩
      have h1 := card_le_card hsub
      have h2 := List.toFinset_card_le (T.take r)
      rw [List.length_take] at h2
      omega

theorem powProd_eq (ps es : List Nat) (h : es.length ≤ ps.length) :
    powProd ps es = ∏ i ∈ range es.length, ps.getD i 1 ^ es.getD i 0 := by
  induction es generalizing ps with
  | nil => cases ps <;> simp [powProd]
  | cons e es ih =>
    cases ps with
    | nil => simp at h
    | cons p ps =>
      rw [powProd, ih ps (by simpa using h), List.length_cons, prod_range_succ', mul_comm]
      simp

theorem descending_of_pairwise {es : List Nat} (h : es.Pairwise (fun a b => b ≤ a)) (h1 : ∀ e ∈ es, 1 ≤ e) (m : Nat)
    (hm : ∀ e ∈ es, e ≤ m) : Descending m es := by
  induction es generalizing m with
  | nil => trivial
  | cons e es ih =>
    obtain ⟨k1, k2⟩ := List.pairwise_cons.1 h
    exact ⟨h1 e (by simp), hm e (by simp), ih k2 (fun x hx => h1 x (List.mem_cons_of_mem _ hx)) e k1⟩

theorem powProd_map (qs : List Nat) (f : Nat → Nat) : powProd qs (qs.map f) = (qs.map (fun q => q ^ f q)).prod := by
  induction qs with
  | nil => rfl
  | cons q qs ih => rw [List.map_cons, powProd, ih]; simp

/-- The exponents of `m` in decreasing order, put on the first primes. -/
theorem exists_exponents (T : List Nat) (hT : IsPrimeTable T) (m : Nat) (hm : 1 ≤ m)
    (hTm : m < T.prod) :
    ∃ es : List Nat, es.length ≤ T.length ∧ es.Pairwise (fun a b => b ≤ a) ∧ (∀ e ∈ es, 1 ≤ e) ∧
      tauProd es = m.divisors.card ∧ powProd T es ≤ m ∧ (2 ≤ m → es ≠ []) := by
  set qs := m.primeFactors.toList.mergeSort (fun a b => decide (m.factorization b ≤ m.factorization a)) with hqs
  have hperm : qs.Perm m.primeFactors.toList := List.mergeSort_perm _ _
  have hsort : qs.Pairwise (fun a b => m.factorization b ≤ m.factorization a) := by
    have := List.pairwise_mergeSort (le := fun a b => decide (m.factorization b ≤ m.factorization a))
      (by intro a b c h1 h2; simp only [decide_eq_true_eq] at *; omega)
      (by intro a b; simp only [Bool.or_eq_true, decide_eq_true_eq]; omega) m.primeFactors.toList
    exact this.imp (fun h => by simpa using h)
  have hnd : qs.Nodup := hperm.nodup_iff.2 (nodup_toList _)
  have hmemq : ∀ q, q ∈ qs ↔ q ∈ m.primeFactors := fun q => by rw [hperm.mem_iff, mem_toList]
  have hpr : ∀ q ∈ qs, q.Prime := fun q hq => Nat.prime_of_mem_primeFactors ((hmemq q).1 hq)
  have hlist : ∀ f : Nat → Nat, (qs.map f).prod = ∏ q ∈ m.primeFactors, f q := by
    intro f
    rw [(hperm.map f).prod_eq]
    exact Finset.prod_map_toList _ _
  have hprod : powProd qs (qs.map m.factorization) = m := by
    rw [powProd_map, hlist]
    exact Nat.prod_factorization_pow_eq_self (by omega)
  have hsub : ∀ r ≤ qs.length, r ≤ T.length → ∏ i ∈ range r, T.getD i 1 ≤ ∏ i ∈ range r, qs.getD i 1 := by
    intro r hr hrT
    have hinj : Set.InjOn (fun i => qs.getD i 1) (range r : Set Nat) := by
      intro i hi j hj hij
      simp only [coe_range, Set.mem_Iio] at hi hj
      dsimp only at hij
      rw [getD_eq _ _ (by omega), getD_eq _ _ (by omega)] at hij
      exact (List.Nodup.getElem_inj_iff hnd).1 hij
    have := prod_table_le T hT r hrT ((range r).image (fun i => qs.getD i 1)) (by
      intro q hq
      obtain ⟨i, hi, rfl⟩ := mem_image.1 hq
      rw [mem_range] at hi
      rw [getD_eq _ _ (by omega)]
      exact hpr _ (List.getElem_mem _)) (by rw [card_image_of_injOn hinj, card_range])
    rwa [prod_image hinj] at this
  have hexp : ∀ q ∈ qs, 1 ≤ m.factorization q := by
    intro q hq
    have := (hmemq q).1 hq
    exact (Nat.prime_of_mem_primeFactors this).factorization_pos_of_dvd (by omega) (Nat.dvd_of_mem_primeFactors this)
  have hprimorial : ∀ r ≤ qs.length, ∏ i ∈ range r, qs.getD i 1 ≤ m := by
    intro r hr
    conv_rhs => rw [← hprod, powProd_eq _ _ (by simp), List.length_map]
    calc ∏ i ∈ range r, qs.getD i 1 ≤ ∏ i ∈ range r, qs.getD i 1 ^ (qs.map m.factorization).getD i 0 := by
          refine prod_le_prod' (fun i hi => ?_)
          rw [mem_range] at hi
          rw [getD_eq _ _ (by omega), getD_eq _ _ (by rw [List.length_map]; omega), List.getElem_map]
          have := hexp _ (List.getElem_mem (l := qs) (by omega : i < qs.length))
          exact Nat.le_self_pow (by omega) _
      _ ≤ ∏ i ∈ range qs.length, qs.getD i 1 ^ (qs.map m.factorization).getD i 0 := by
          refine prod_le_prod_of_subset_of_one_le' (range_subset_range.2 hr) ?_
          intro i hi _
          rw [mem_range] at hi
          rw [getD_eq _ _ hi]
          exact Nat.one_le_pow _ _ (hpr _ (List.getElem_mem _)).pos
  have hlen : qs.length ≤ T.length := by
    by_contra hc
    push Not at hc
    have h1 := hsub T.length (by omega) (le_refl _)
    have h2 := hprimorial T.length (by omega)
    have h3 : ∏ i ∈ range T.length, T.getD i 1 = T.prod := by
      exact prod_range_getD T
    omega
  refine ⟨qs.map m.factorization, by simpa using hlen, ?_, ?_, ?_, ?_, ?_⟩
  · rw [List.pairwise_map]; exact hsort
  · intro e he
    obtain ⟨q, hq, rfl⟩ := List.mem_map.1 he
    exact hexp q hq
  · unfold tauProd
    rw [List.map_map, Nat.card_divisors (by omega)]
    exact hlist (fun q => m.factorization q + 1)
  · rw [powProd_eq _ _ (by simpa using hlen)]
    conv_rhs => rw [← hprod, powProd_eq _ _ (by simp)]
    refine prod_pow_le _ _ _ _ (fun r' hr' => hsub r' (by simpa using hr') (by rw [List.length_map] at hr'; omega)) ?_
    intro i j hij hj
    rw [List.length_map] at hj
    rw [getD_eq _ _ (by rw [List.length_map]; omega), getD_eq _ _ (by rw [List.length_map]; omega),
      List.getElem_map, List.getElem_map]
    rcases Nat.lt_or_ge i j with h | h
    · exact List.pairwise_iff_getElem.1 hsort i j (by omega) hj h
    · have : i = j := by omega
      subst this
      exact le_refl _
  · intro h2 h3
    have : qs = [] := by simpa using h3
    have h4 := Nat.minFac_prime (by omega : m ≠ 1)
    have : m.minFac ∈ qs := (hmemq _).2 (Nat.mem_primeFactors.2 ⟨h4, Nat.minFac_dvd m, by omega⟩)
    simp_all

theorem primesWithin_spec (B : Int) (T : List Nat) (hT : ∀ p ∈ T, 1 ≤ p) (pp : Nat) :
    ∃ r, primesWithin B T pp = T.take r ∧ r ≤ T.length ∧
      ∀ j, j ≤ T.length → 1 ≤ j → ((pp * (T.take j).prod : Nat) : Int) ≤ B → j ≤ r := by
  induction T generalizing pp with
  | nil => exact ⟨0, rfl, le_refl _, fun j h1 h2 => by simp at h1; omega⟩
  | cons p T ih =>
    rw [primesWithin]
    by_cases h : ((pp * p : Nat) : Int) ≤ B
    · rw [if_pos h]
      obtain ⟨r, h1, h2, h3⟩ := ih (fun q hq => hT q (List.mem_cons_of_mem _ hq)) (pp * p)
      refine ⟨r + 1, by rw [h1, List.take_succ_cons], by simpa using h2, ?_⟩
      intro j hj hj1 hB
      cases j with
      | zero => omega
      | succ j =>
        cases j with
        | zero => omega
        | succ j =>
          have := h3 (j + 1) (by simpa using hj) (by omega) (by
            rw [List.take_succ_cons, List.prod_cons, ← mul_assoc] at hB
            exact hB)
          omega
    · rw [if_neg h]
      refine ⟨0, rfl, by omega, ?_⟩
      intro j hj hj1 hB
      cases j with
      | zero => omega
      | succ j =>
        exfalso
        apply h
        rw [List.take_succ_cons, List.prod_cons, ← mul_assoc] at hB
        have : 1 ≤ (T.take j).prod := Nat.pos_of_ne_zero (by
          rw [Ne, List.prod_eq_zero_iff]
          intro h0
          have := hT 0 (List.mem_cons_of_mem _ (List.mem_of_mem_take h0))
          omega)
        have : pp * p * 1 ≤ pp * p * (T.take j).prod := Nat.mul_le_mul_left _ this
        omega

theorem powProd_take (T es : List Nat) (r : Nat) (h : es.length ≤ r) : powProd (T.take r) es = powProd T es := by
  induction es generalizing T r with
  | nil => cases T <;> cases r <;> simp [powProd]
  | cons e es ih =>
    cases r with
    | zero => simp at h
    | succ r =>
      cases T with
      | nil => rfl
      | cons p T => rw [List.take_succ_cons, powProd, powProd, ih T r (by simpa using h)]

theorem prod_take_le_powProd (T es : List Nat) (hT : ∀ p ∈ T, 1 ≤ p) (hes : ∀ e ∈ es, 1 ≤ e) :
    (T.take es.length).prod ≤ powProd T es := by
  induction es generalizing T with
  | nil => cases T <;> simp [powProd]
  | cons e es ih =>
    cases T with
    | nil => simp [powProd]
    | cons p T =>
      rw [List.length_cons, List.take_succ_cons, List.prod_cons, powProd]
      refine Nat.mul_le_mul (Nat.le_self_pow ?_ _) (ih T (fun q hq => hT q (List.mem_cons_of_mem _ hq)) (fun x hx => hes x (List.mem_cons_of_mem _ hx)))
      have := hes e (by simp)
      omega

end Rosemary.NtMisc
