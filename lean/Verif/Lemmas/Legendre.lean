import Verif.Lemmas.Lucy

/-!
# Legendre's formula and the memoised recursions of `legendre` and `prime_sum2`
-/

namespace Rosemary.PrimeCounting

open Rosemary.Sieves Rosemary.Spec Finset

/-- Sum of `f` over the `1 ≤ m ≤ x` divisible by none of the first `a` entries of `ps`. -/
def legendreSum (f : Nat → Int) (ps : List Nat) (x a : Nat) : Int :=
  ∑ m ∈ (Icc 1 x).filter (fun m => ∀ p ∈ ps.take a, ¬ p ∣ m), f m

/-- The set of summation of `legendreSum`. -/
def unsieved (ps : List Nat) (x a : Nat) : Finset Nat :=
  (Icc 1 x).filter (fun m => ∀ p ∈ ps.take a, ¬ p ∣ m)

theorem mem_unsieved {ps : List Nat} {x a m : Nat} :
    m ∈ unsieved ps x a ↔ (1 ≤ m ∧ m ≤ x) ∧ ∀ p ∈ ps.take a, ¬ p ∣ m := by
  simp [unsieved]

/-- What is used of the list of primes. -/
structure PrimeSeq (ps : List Nat) : Prop where
  prime : ∀ p ∈ ps, p.Prime
  sorted : ps.Pairwise (· < ·)

theorem primesUpTo_primeSeq (n : Nat) : PrimeSeq (primesUpTo n) :=
  ⟨fun _ hp => (mem_primesUpTo.1 hp).1, primesUpTo_sorted n⟩

theorem legendreSum_step {f : Nat → Int} {ps : List Nat} (hps : PrimeSeq ps) {x a p : Nat}
    (hp : ps[a]? = some p) (hf : ∀ k, f (p * k) = f p * f k) :
    legendreSum f ps x (a + 1) = legendreSum f ps x a - f p * legendreSum f ps (x / p) a := by
  obtain ⟨ha, hpa⟩ := List.getElem?_eq_some_iff.1 hp
  have hpm : p ∈ ps := hpa ▸ List.getElem_mem ha
  have hpp := hps.prime p hpm
  have htake : ps.take (a + 1) = ps.take a ++ [p] := by
    rw [List.take_add_one, hp]; rfl
  have hlt : ∀ q ∈ ps.take a, q < p := by
    intro q hq
    have h1 : (ps.take (a + 1)).Pairwise (· < ·) := hps.sorted.sublist (List.take_sublist _ _)
    rw [htake, List.pairwise_append] at h1
    exact h1.2.2 q hq p (by simp)
  change ∑ m ∈ unsieved ps x (a + 1), f m =
    ∑ m ∈ unsieved ps x a, f m - f p * ∑ m ∈ unsieved ps (x / p) a, f m
  have e : unsieved ps x a =
      unsieved ps x (a + 1) ∪ (unsieved ps (x / p) a).image (fun k => p * k) := by
    ext m
    simp only [mem_unsieved, mem_union, mem_image, htake, List.mem_append,
      List.mem_singleton]
    constructor
    · rintro ⟨h1, h2⟩
      by_cases hd : p ∣ m
      · right
        obtain ⟨k, rfl⟩ := hd
        have hk : 0 < k := Nat.pos_of_mul_pos_left (by omega : 0 < p * k)
        refine ⟨k, ⟨⟨hk, ?_⟩, fun q hq hqk => h2 q hq (hqk.trans (dvd_mul_left k p))⟩, rfl⟩
        rw [Nat.le_div_iff_mul_le hpp.pos, mul_comm]; omega
      · left
        refine ⟨h1, ?_⟩
        rintro q (hq | rfl)
        · exact h2 q hq
        · exact hd
    · rintro (⟨h1, h2⟩ | ⟨k, ⟨h1, h2⟩, rfl⟩)
      · exact ⟨h1, fun q hq => h2 q (Or.inl hq)⟩
      · have h3 := h1.2
        rw [Nat.le_div_iff_mul_le hpp.pos, mul_comm] at h3
        refine ⟨⟨Nat.mul_pos hpp.pos (by omega), h3⟩, ?_⟩
        intro q hq hd
        have hqp := hps.prime q (List.mem_of_mem_take hq)
        rcases hqp.dvd_mul.1 hd with h4 | h4
        · have := (Nat.prime_dvd_prime_iff_eq hqp hpp).1 h4
          have := hlt q hq
          omega
        · exact h2 q hq h4
  rw [e, sum_union]
  · rw [sum_image (by intro i _ j _ h; exact Nat.eq_of_mul_eq_mul_left hpp.pos h),
      sum_congr rfl (fun k _ => hf k), ← mul_sum]
    ring
  · rw [Finset.disjoint_left]
    intro m hm hm2
    simp only [mem_unsieved, mem_image] at hm hm2
    obtain ⟨k, -, rfl⟩ := hm2
    exact hm.2 p (by rw [htake]; simp) (dvd_mul_right p k)

theorem legendreSum_stop {f : Nat → Int} {ps : List Nat} (hps : PrimeSeq ps) {x i a p : Nat}
    (hp : ps[i]? = some p) (hpx : x < p) (hia : i ≤ a) :
    legendreSum f ps x a = legendreSum f ps x i := by
  unfold legendreSum
  apply sum_congr _ (fun _ _ => rfl)
  ext m
  simp only [mem_filter, mem_Icc]
  constructor
  · rintro ⟨h1, h2⟩
    refine ⟨h1, fun q hq => h2 q ?_⟩
    rw [List.mem_take_iff_getElem] at hq ⊢
    obtain ⟨j, hj, rfl⟩ := hq
    exact ⟨j, by omega, rfl⟩
  · rintro ⟨h1, h2⟩
    refine ⟨h1, fun q hq hd => ?_⟩
    rw [List.mem_take_iff_getElem] at hq
    obtain ⟨j, hj, rfl⟩ := hq
    by_cases hji : j < i
    · exact h2 _ (List.mem_take_iff_getElem.2 ⟨j, by omega, rfl⟩) hd
    · have h3 : p ≤ ps[j] := by
        obtain ⟨hi, rfl⟩ := List.getElem?_eq_some_iff.1 hp
        rcases Nat.lt_or_ge i j with h | h
        · exact Nat.le_of_lt (List.pairwise_iff_getElem.1 hps.sorted i j hi (by omega) h)
        · have : i = j := by omega
          subst this; exact le_refl _
      have := Nat.le_of_dvd (by omega) hd
      omega

/-- The memo holds correct values only. -/
def MemoOk (g : Nat → Nat → Int) (memo : Memo) : Prop :=
  ∀ x a v, memo.lookup (x, a) = some v → v = g x a

theorem MemoOk.cons {g : Nat → Nat → Int} {memo : Memo} (h : MemoOk g memo) (x a : Nat) :
    MemoOk g (((x, a), g x a) :: memo) := by
  intro x' a' v hv
  rw [List.lookup_cons] at hv
  split at hv
  · rename_i heq
    rw [beq_iff_eq] at heq
    injection heq with h1 h2
    injection hv with hv
    rw [← hv, h1, h2]
  · exact h x' a' v hv

theorem MemoOk.nil (g : Nat → Nat → Int) : MemoOk g [] := by
  intro x a v h; simp at h

theorem phiFor_spec {ps : List Nat} (hps : PrimeSeq ps) {x a : Nat} (ha : a ≤ ps.length)
    (rec : Nat → Nat → Memo → Except PyErr (Int × Memo))
    (hrec : ∀ x' a' memo, 0 < a' → a' < a → MemoOk (legendreSum (fun _ => 1) ps) memo →
      ∃ m', rec x' a' memo = .ok (legendreSum (fun _ => 1) ps x' a', m') ∧
        MemoOk (legendreSum (fun _ => 1) ps) m')
    (k i : Nat) (hi : 2 ≤ i) (hik : i + k = a + 1) (memo : Memo)
    (hm : MemoOk (legendreSum (fun _ => 1) ps) memo) :
    ∃ m', phiFor rec ps x (List.range' i k) (legendreSum (fun _ => 1) ps x (i - 1)) memo =
        .ok (legendreSum (fun _ => 1) ps x a, m') ∧ MemoOk (legendreSum (fun _ => 1) ps) m' := by
  induction k generalizing i memo with
  | zero =>
    have : i - 1 = a := by omega
    rw [this]; exact ⟨memo, rfl, hm⟩
  | succ k ih =>
    rw [List.range'_succ]
    unfold phiFor
    have hp : ps[i - 1]? = some ps[i - 1] := List.getElem?_eq_getElem (by omega)
    rw [hp]
    dsimp only
    generalize ps[i - 1] = p at hp
    by_cases hpx : p > x
    · rw [if_pos hpx]
      exact ⟨memo, by rw [legendreSum_stop hps hp hpx (by omega : i - 1 ≤ a)], hm⟩
    · rw [if_neg hpx]
      obtain ⟨m1, h1, hm1⟩ := hrec (x / p) (i - 1) memo (by omega) (by omega) hm
      rw [h1]
      dsimp only
      have hstep := legendreSum_step (f := fun _ => 1) (x := x) hps hp (fun _ => rfl)
      rw [Nat.sub_add_cancel (by omega), one_mul] at hstep
      obtain ⟨m2, h2, hm2⟩ := ih (i + 1) (by omega) (by omega) m1 hm1
      rw [Nat.add_sub_cancel, hstep] at h2
      exact ⟨m2, h2, hm2⟩

/-- The first step, with the prime 2, is done by the closed form. -/
theorem legendreSum_one {ps : List Nat} (h2 : ps[0]? = some 2) (x : Nat) :
    legendreSum (fun _ => 1) ps x 1 = ((x + 1) / 2 : Nat) := by
  unfold legendreSum
  have ht : ps.take 1 = [2] := by
    rw [show (1 : Nat) = 0 + 1 from rfl, List.take_add_one, h2]; rfl
  rw [ht, Finset.sum_const, nsmul_eq_mul, mul_one]
  congr 1
  induction x with
  | zero => rfl
  | succ x ih =>
    have e : Icc 1 (x + 1) = insert (x + 1) (Icc 1 x) := by
      ext m; simp only [mem_insert, mem_Icc]; omega
    rw [e, filter_insert]
    simp only [List.mem_singleton, forall_eq] at ih ⊢
    by_cases ho : 2 ∣ x + 1
    · rw [if_neg (not_not.2 ho), ih]; omega
    · rw [if_pos ho, card_insert_of_notMem (by simp), ih]; omega

theorem legendrePhi_spec {ps : List Nat} (hps : PrimeSeq ps) (h2 : ps[0]? = some 2)
    (fuel a x : Nat) (hf : a < fuel) (ha0 : 0 < a) (ha : a ≤ ps.length) (memo : Memo)
    (hm : MemoOk (legendreSum (fun _ => 1) ps) memo) :
    ∃ m', legendrePhi ps fuel x a memo = .ok (legendreSum (fun _ => 1) ps x a, m') ∧
      MemoOk (legendreSum (fun _ => 1) ps) m' := by
  induction fuel generalizing a x memo with
  | zero => omega
  | succ fuel ih =>
    unfold legendrePhi
    split
    · rename_i v hv
      exact ⟨memo, by rw [hm _ _ _ hv], hm⟩
    · by_cases ha1 : a = 1
      · rw [if_pos ha1]
        subst ha1
        exact ⟨memo, by rw [legendreSum_one h2], hm⟩
      · rw [if_neg ha1]
        obtain ⟨m1, h1, hm1⟩ := phiFor_spec (x := x) hps ha (legendrePhi ps fuel)
          (fun x' a' memo h0 hlt hm => ih a' x' (by omega) h0 (by omega) memo hm)
          (a - 1) 2 (le_refl _) (by omega) memo hm
        rw [show 2 - 1 = 1 from rfl, legendreSum_one h2] at h1
        rw [show pyRange 2 (a + 1) = List.range' 2 (a - 1) from rfl, h1]
        exact ⟨_, rfl, hm1.cons x a⟩

/-! ## prime_sum2 -/

theorem phiSumFor_spec {ps : List Nat} (hps : PrimeSeq ps) {x a : Nat} (ha : a ≤ ps.length)
    (rec : Nat → Nat → Memo → Except PyErr (Int × Memo))
    (hrec : ∀ x' a' memo, a' < a → MemoOk (legendreSum (fun m => (m : Int)) ps) memo →
      ∃ m', rec x' a' memo = .ok (legendreSum (fun m => (m : Int)) ps x' a', m') ∧
        MemoOk (legendreSum (fun m => (m : Int)) ps) m')
    (k i : Nat) (hi : 1 ≤ i) (hik : i + k = a + 1) (memo : Memo)
    (hm : MemoOk (legendreSum (fun m => (m : Int)) ps) memo) :
    ∃ m', phiSumFor rec ps x (List.range' i k) (legendreSum (fun m => (m : Int)) ps x (i - 1)) memo =
        .ok (legendreSum (fun m => (m : Int)) ps x a, m') ∧
      MemoOk (legendreSum (fun m => (m : Int)) ps) m' := by
  induction k generalizing i memo with
  | zero =>
    have : i - 1 = a := by omega
    rw [this]; exact ⟨memo, rfl, hm⟩
  | succ k ih =>
    rw [List.range'_succ]
    unfold phiSumFor
    have hp : ps[i - 1]? = some ps[i - 1] := List.getElem?_eq_getElem (by omega)
    rw [hp]
    dsimp only
    generalize ps[i - 1] = p at hp
    by_cases hpx : p > x
    · rw [if_pos hpx]
      exact ⟨memo, by rw [legendreSum_stop hps hp hpx (by omega : i - 1 ≤ a)], hm⟩
    · rw [if_neg hpx]
      obtain ⟨m1, h1, hm1⟩ := hrec (x / p) (i - 1) memo (by omega) hm
      rw [h1]
      dsimp only
      have hstep := legendreSum_step (f := fun m => (m : Int)) (x := x) hps hp
        (fun k => by push_cast; rfl)
      rw [Nat.sub_add_cancel (by omega)] at hstep
      obtain ⟨m2, h2, hm2⟩ := ih (i + 1) (by omega) (by omega) m1 hm1
      rw [Nat.add_sub_cancel, hstep] at h2
      exact ⟨m2, h2, hm2⟩

theorem legendreSum_zero (ps : List Nat) (x : Nat) :
    legendreSum (fun m => (m : Int)) ps x 0 = (x * (x + 1) / 2 : Nat) := by
  unfold legendreSum
  simp only [List.take_zero, List.not_mem_nil, false_imp_iff, implies_true, filter_true]
  have : ∀ x : Nat, x * (x + 1) = 2 * ∑ m ∈ Icc 1 x, m := by
    intro x
    induction x with
    | zero => rfl
    | succ x ih => rw [Finset.sum_Icc_succ_top (by omega), Nat.mul_add 2, ← ih]; ring
  rw [this x, Nat.mul_div_cancel_left _ (by omega)]
  push_cast; rfl

theorem sumPhi_spec {ps : List Nat} (hps : PrimeSeq ps)
    (fuel a x : Nat) (hf : a < fuel) (ha : a ≤ ps.length) (memo : Memo)
    (hm : MemoOk (legendreSum (fun m => (m : Int)) ps) memo) :
    ∃ m', sumPhi ps fuel x a memo = .ok (legendreSum (fun m => (m : Int)) ps x a, m') ∧
      MemoOk (legendreSum (fun m => (m : Int)) ps) m' := by
  induction fuel generalizing a x memo with
  | zero => omega
  | succ fuel ih =>
    unfold sumPhi
    split
    · rename_i v hv
      exact ⟨memo, by rw [hm _ _ _ hv], hm⟩
    · by_cases hx : x = 0
      · rw [if_pos hx]
        subst hx
        exact ⟨memo, rfl, hm⟩
      · rw [if_neg hx]
        by_cases ha0 : a = 0
        · rw [if_pos ha0]
          subst ha0
          exact ⟨memo, by rw [legendreSum_zero], hm⟩
        · rw [if_neg ha0]
          obtain ⟨m1, h1, hm1⟩ := phiSumFor_spec (x := x) hps ha (sumPhi ps fuel)
            (fun x' a' memo hlt hm => ih a' x' (by omega) (by omega) memo hm)
            a 1 (le_refl _) (by omega) memo hm
          rw [show 1 - 1 = 0 from rfl, legendreSum_zero] at h1
          rw [show pyRange 1 (a + 1) = List.range' 1 a from rfl, h1]
          exact ⟨_, rfl, hm1.cons x a⟩

/-! ## The final formula -/

theorem primeSumTo_list (f : Nat → Int) (n : Nat) : ((primesUpTo n).map f).sum = primeSumTo f n := by
  have hnd : (primesUpTo n).Nodup := (primesUpTo_sorted n).imp (fun h => Nat.ne_of_lt h)
  rw [← List.sum_toFinset _ hnd]
  unfold primeSumTo
  apply sum_congr _ (fun _ _ => rfl)
  ext p
  simp only [List.mem_toFinset, mem_primesUpTo, mem_filter, mem_Icc]
  constructor
  · rintro ⟨h1, h2⟩; exact ⟨⟨h1.two_le, h2⟩, h1⟩
  · rintro ⟨h1, h2⟩; exact ⟨h2, h1.2⟩

theorem legendre_formula {f : Nat → Int} (h1 : f 1 = 1) {n root : Nat} (hn : 0 < n) (hrn : root ≤ n)
    (hr : n < (root + 1) * (root + 1)) :
    legendreSum f (primesUpTo root) n (primesUpTo root).length + primeSumTo f root - 1 =
      primeSumTo f n := by
  unfold legendreSum
  rw [List.take_length]
  have e : (Icc 1 n).filter (fun m => ∀ p ∈ primesUpTo root, ¬ p ∣ m) =
      insert 1 ((Icc (root + 1) n).filter Nat.Prime) := by
    ext m
    simp only [mem_filter, mem_Icc, mem_insert, mem_primesUpTo]
    constructor
    · rintro ⟨h2, h3⟩
      by_cases hm1 : m = 1
      · exact Or.inl hm1
      · right
        have h4 := Nat.minFac_prime hm1
        have h5 : root < m.minFac := by
          by_contra hc
          exact h3 _ ⟨h4, by omega⟩ (Nat.minFac_dvd m)
        have h6 := Nat.minFac_le (n := m) (by omega)
        refine ⟨⟨by omega, h2.2⟩, ?_⟩
        by_contra hc
        have h7 := Nat.minFac_sq_le_self (by omega) hc
        rw [pow_two] at h7
        have := Nat.mul_le_mul (by omega : root + 1 ≤ m.minFac) (by omega : root + 1 ≤ m.minFac)
        omega
    · rintro (rfl | ⟨h2, h3⟩)
      · exact ⟨by omega, fun p hp hd => hp.1.one_lt.ne' (Nat.dvd_one.1 hd)⟩
      · refine ⟨by omega, ?_⟩
        rintro p ⟨hp, hpr⟩ hd
        have := (Nat.prime_dvd_prime_iff_eq hp h3).1 hd
        omega
  rw [e, sum_insert (by simp [Nat.not_prime_one]), h1]
  unfold primeSumTo
  have e2 : (Icc 2 n).filter Nat.Prime =
      (Icc 2 root).filter Nat.Prime ∪ (Icc (root + 1) n).filter Nat.Prime := by
    ext m
    simp only [mem_filter, mem_Icc, mem_union]
    constructor
    · rintro ⟨h2, h3⟩
      by_cases hm : m ≤ root
      · exact Or.inl ⟨by omega, h3⟩
      · exact Or.inr ⟨by omega, h3⟩
    · rintro (⟨h2, h3⟩ | ⟨h2, h3⟩)
      · exact ⟨by omega, h3⟩
      · have := h3.two_le; exact ⟨by omega, h3⟩
  rw [e2, sum_union]
  · ring
  · rw [Finset.disjoint_left]
    intro m hm hm2
    simp only [mem_filter, mem_Icc] at hm hm2
    omega

theorem primeSumTo_one (n : Nat) : primeSumTo (fun _ => 1) n = (Nat.primeCounting n : Int) := by
  unfold primeSumTo Nat.primeCounting Nat.primeCounting'
  rw [Nat.count_eq_card_filter_range, Finset.sum_const, nsmul_eq_mul, mul_one]
  congr 2
  ext p
  simp only [mem_filter, mem_Icc, mem_range]
  constructor
  · rintro ⟨h1, h2⟩; exact ⟨by omega, h2⟩
  · rintro ⟨h1, h2⟩; have := h2.two_le; exact ⟨by omega, h2⟩

theorem primeSumTo_id (n : Nat) :
    primeSumTo (fun m => (m : Int)) n = ((∑ p ∈ (range (n + 1)).filter Nat.Prime, p : Nat) : Int) := by
  unfold primeSumTo
  push_cast
  apply sum_congr _ (fun _ _ => rfl)
  ext p
  simp only [mem_filter, mem_Icc, mem_range]
  constructor
  · rintro ⟨h1, h2⟩; exact ⟨by omega, h2⟩
  · rintro ⟨h1, h2⟩; have := h2.two_le; exact ⟨by omega, h2⟩

/-! ## The dead table code of prime_sum2 -/

theorem sumTable_ok (l : List (Nat × Nat)) (table : List Nat) (h : ∀ q ∈ l, q.1 < table.length) :
    ∃ t, sumTable l table = .ok t ∧ t.length = table.length := by
  induction l generalizing table with
  | nil => exact ⟨table, rfl, rfl⟩
  | cons q l ih =>
    unfold sumTable
    rw [if_pos (h q (by simp))]
    obtain ⟨t, ht, hl⟩ := ih (table.set q.1 q.2) (by intro q' hq'; simpa using h q' (by simp [hq']))
    exact ⟨t, ht, by rw [hl]; simp⟩

theorem fillTable_ok (is : List Nat) (table : List Nat) (h : ∀ i ∈ is, i < table.length) :
    ∃ t, fillTable is table = .ok t := by
  induction is generalizing table with
  | nil => exact ⟨table, rfl⟩
  | cons i is ih =>
    unfold fillTable
    have := h i (by simp)
    rw [List.getElem?_eq_getElem this, List.getElem?_eq_getElem (by omega : i - 1 < table.length)]
    dsimp only
    apply ih
    intro j hj
    have := h j (by simp [hj])
    split
    · simpa using this
    · exact this

/-! ## pi_table -/

theorem fillSlice_length {table : List Nat} {last stop v : Nat} (h1 : last ≤ stop)
    (h2 : stop ≤ table.length) : (fillSlice table last stop v).length = table.length := by
  simp [fillSlice]; omega

theorem fillSlice_get {table : List Nat} {last stop v : Nat} (h1 : last ≤ stop)
    (h2 : stop ≤ table.length) (j : Nat) :
    (fillSlice table last stop v)[j]? = if last ≤ j ∧ j < stop then some v else table[j]? := by
  unfold fillSlice
  by_cases hj : j < last
  · rw [if_neg (by omega), List.append_assoc, List.getElem?_append_left (by simp; omega),
      List.getElem?_take_of_lt hj]
  · rw [List.append_assoc, List.getElem?_append_right (by simp; omega)]
    have hl : (table.take last).length = last := by simp; omega
    rw [hl]
    by_cases hj2 : j < stop
    · rw [if_pos (by omega), List.getElem?_append_left (by simp; omega)]
      rw [List.getElem?_replicate, if_pos (by omega)]
    · rw [if_neg (by omega), List.getElem?_append_right (by simp; omega), List.getElem?_drop]
      congr 1
      simp; omega

end Rosemary.PrimeCounting
