import Verif.Model.Sums
import Verif.Lemmas.Tables

/-!
# The Dirichlet hyperbola method and the memoised recursions of `sums.py`
-/

namespace Rosemary.Sums

open Rosemary.Sieves Rosemary.Tables Finset

/-- `f(1) + ... + f(n)`. -/
def summ (f : Nat → Int) (n : Nat) : Int := ∑ i ∈ Ioc 0 n, f i

theorem summ_succ (f : Nat → Int) (n : Nat) : summ f (n + 1) = summ f n + f (n + 1) := by
  unfold summ
  rw [← Finset.insert_Ioc_right_eq_Ioc_add_one (by omega), Finset.sum_insert (by simp), add_comm]

theorem summ_zero (f : Nat → Int) : summ f 0 = 0 := by simp [summ]

theorem sum_pyRange (f : Nat → Int) (r : Nat) : ((pyRange 1 (r + 1)).map f).sum = summ f r := by
  have hnd : (pyRange 1 (r + 1)).Nodup := (pyRange_sorted _ _).imp (fun h => Nat.ne_of_lt h)
  rw [← List.sum_toFinset _ hnd]
  unfold summ
  apply Finset.sum_congr _ (fun _ _ => rfl)
  ext i
  simp only [List.mem_toFinset, mem_pyRange, mem_Ioc]
  omega

theorem sum_pyRange_two (f : Nat → Int) {r : Nat} (hr : 0 < r) :
    ((pyRange 2 (r + 1)).map f).sum = summ f r - f 1 := by
  rw [← sum_pyRange, pyRange_cons (by omega : 1 < r + 1)]
  simp

/-- The pairs `(i, j)` of positive integers with `i * j ≤ n`, grouped by their product. -/
theorem sum_pairs (F : Nat → Nat → Int) (n : Nat) :
    ∑ m ∈ Ioc 0 n, ∑ x ∈ m.divisorsAntidiagonal, F x.1 x.2 =
      ∑ x ∈ (Ioc 0 n ×ˢ Ioc 0 n).filter (fun x => x.1 * x.2 ≤ n), F x.1 x.2 := by
  trans ∑ m ∈ Ioc 0 n, ∑ x ∈ (Ioc 0 n ×ˢ Ioc 0 n).filter (fun x => x.1 * x.2 = m), F x.1 x.2
  · refine sum_congr rfl fun m hm => ?_
    simp only [mem_Ioc] at hm
    rw [Nat.divisorsAntidiagonal_eq_prod_filter_of_le (by omega) hm.2]
  · simp_rw [sum_filter]
    rw [sum_comm]
    refine sum_congr rfl fun x hx => ?_
    simp only [mem_product, mem_Ioc] at hx
    have hpos : 0 < x.1 * x.2 := Nat.mul_pos (by omega) (by omega)
    rw [Finset.sum_ite_eq]
    simp only [mem_Ioc]
    simp [hpos]

theorem sum_antidiag (g : Nat → Int) (m : Nat) :
    ∑ x ∈ m.divisorsAntidiagonal, g x.1 = ∑ i ∈ m.divisors, g i :=
  Nat.sum_divisorsAntidiagonal (fun i _ => g i)

/-- The hyperbola method. -/
theorem hyperbola (f g : Nat → Int) {n r : Nat} (h1 : r * r ≤ n) (h2 : n < (r + 1) * (r + 1)) :
    ∑ x ∈ (Ioc 0 n ×ˢ Ioc 0 n).filter (fun x => x.1 * x.2 ≤ n), f x.1 * g x.2 =
      summ (fun d => f d * summ g (n / d) + g d * summ f (n / d)) r - summ f r * summ g r := by
  set P := (Ioc 0 n ×ˢ Ioc 0 n).filter (fun x => x.1 * x.2 ≤ n) with hP
  have hrn : r ≤ n := by nlinarith
  have e1 : ∑ x ∈ P, f x.1 * g x.2 = ∑ x ∈ P.filter (fun x => x.1 ≤ r), f x.1 * g x.2 +
      ∑ x ∈ P.filter (fun x => ¬ x.1 ≤ r), f x.1 * g x.2 :=
    (sum_filter_add_sum_filter_not _ _ _).symm
  have e2 : ∑ x ∈ P.filter (fun x => x.2 ≤ r), f x.1 * g x.2 =
      ∑ x ∈ (P.filter (fun x => x.2 ≤ r)).filter (fun x => x.1 ≤ r), f x.1 * g x.2 +
      ∑ x ∈ (P.filter (fun x => x.2 ≤ r)).filter (fun x => ¬ x.1 ≤ r), f x.1 * g x.2 :=
    (sum_filter_add_sum_filter_not _ _ _).symm
  have e3 : (P.filter (fun x => x.2 ≤ r)).filter (fun x => ¬ x.1 ≤ r) =
      P.filter (fun x => ¬ x.1 ≤ r) := by
    ext ⟨i, j⟩
    simp only [mem_filter, hP, mem_product, mem_Ioc]
    constructor
    · rintro ⟨⟨h3, -⟩, h5⟩; exact ⟨h3, h5⟩
    · rintro ⟨h3, h5⟩
      refine ⟨⟨h3, ?_⟩, h5⟩
      by_contra hc
      have := Nat.mul_le_mul (by omega : r + 1 ≤ i) (by omega : r + 1 ≤ j)
      omega
  have e4 : (P.filter (fun x => x.2 ≤ r)).filter (fun x => x.1 ≤ r) = Ioc 0 r ×ˢ Ioc 0 r := by
    ext ⟨i, j⟩
    simp only [mem_filter, hP, mem_product, mem_Ioc]
    constructor
    · rintro ⟨⟨⟨h3, -⟩, h4⟩, h5⟩; omega
    · rintro ⟨h3, h4⟩
      have := Nat.mul_le_mul h3.2 h4.2
      exact ⟨⟨⟨by omega, by omega⟩, h4.2⟩, h3.2⟩
  have e5 : ∑ x ∈ Ioc 0 r ×ˢ Ioc 0 r, f x.1 * g x.2 = summ f r * summ g r := by
    unfold summ
    rw [sum_product, sum_mul_sum]
  have e6 : ∑ x ∈ P.filter (fun x => x.1 ≤ r), f x.1 * g x.2 =
      summ (fun d => f d * summ g (n / d)) r := by
    unfold summ
    simp_rw [mul_sum]
    rw [sum_sigma']
    refine sum_bij' (fun x _ => ⟨x.1, x.2⟩) (fun x _ => (x.1, x.2)) ?_ ?_ ?_ ?_ ?_
    · rintro ⟨i, j⟩ hx
      simp only [mem_filter, hP, mem_product, mem_Ioc, mem_sigma] at hx ⊢
      refine ⟨by omega, by omega, ?_⟩
      rw [Nat.le_div_iff_mul_le (by omega), mul_comm]; omega
    · rintro ⟨i, j⟩ hx
      simp only [mem_filter, hP, mem_product, mem_Ioc, mem_sigma] at hx ⊢
      have h3 := hx.2.2
      rw [Nat.le_div_iff_mul_le (by omega), mul_comm] at h3
      have h4 : 1 * j ≤ i * j := Nat.mul_le_mul_right _ (by omega)
      omega
    · rintro ⟨i, j⟩ _; rfl
    · rintro ⟨i, j⟩ _; rfl
    · rintro ⟨i, j⟩ _; rfl
  have e7 : ∑ x ∈ P.filter (fun x => x.2 ≤ r), f x.1 * g x.2 =
      summ (fun d => g d * summ f (n / d)) r := by
    unfold summ
    simp_rw [mul_sum]
    rw [sum_sigma']
    refine sum_bij' (fun x _ => ⟨x.2, x.1⟩) (fun x _ => (x.2, x.1)) ?_ ?_ ?_ ?_ ?_
    · rintro ⟨i, j⟩ hx
      simp only [mem_filter, hP, mem_product, mem_Ioc, mem_sigma] at hx ⊢
      refine ⟨by omega, by omega, ?_⟩
      rw [Nat.le_div_iff_mul_le (by omega)]; omega
    · rintro ⟨i, j⟩ hx
      simp only [mem_filter, hP, mem_product, mem_Ioc, mem_sigma] at hx ⊢
      have h3 := hx.2.2
      rw [Nat.le_div_iff_mul_le (by omega)] at h3
      have h4 : j * 1 ≤ j * i := Nat.mul_le_mul_left _ (by omega)
      omega
    · rintro ⟨i, j⟩ _; rfl
    · rintro ⟨i, j⟩ _; rfl
    · rintro ⟨i, j⟩ _; exact mul_comm _ _
  have e8 : summ (fun d => f d * summ g (n / d) + g d * summ f (n / d)) r =
      summ (fun d => f d * summ g (n / d)) r + summ (fun d => g d * summ f (n / d)) r := by
    unfold summ; rw [sum_add_distrib]
  rw [e3, e4, e5] at e2
  rw [e8, e1, e6, ← e7]
  linarith

/-- The product of two prefix sums, by the larger index. -/
theorem summ_mul (f g : Nat → Int) (r : Nat) :
    summ f r * summ g r =
      summ (fun d => f d * summ g (d - 1) + g d * summ f (d - 1) + f d * g d) r := by
  induction r with
  | zero => simp [summ_zero]
  | succ r ih =>
    rw [summ_succ f, summ_succ g, summ_succ _ r, ← ih, Nat.add_sub_cancel]
    ring

/-- The hyperbola method, the pairs grouped by their minimum. -/
theorem hyperbola' (f g : Nat → Int) {n r : Nat} (h1 : r * r ≤ n) (h2 : n < (r + 1) * (r + 1)) :
    ∑ x ∈ (Ioc 0 n ×ˢ Ioc 0 n).filter (fun x => x.1 * x.2 ≤ n), f x.1 * g x.2 =
      summ (fun d => f d * (summ g (n / d) - summ g (d - 1)) +
        g d * (summ f (n / d) - summ f (d - 1)) - f d * g d) r := by
  rw [hyperbola f g h1 h2, summ_mul]
  unfold summ
  rw [← sum_sub_distrib]
  apply sum_congr rfl
  intro d _
  ring

theorem summ_one (n : Nat) : summ (fun _ => 1) n = n := by simp [summ]

theorem summ_id (n : Nat) : 2 * summ (fun i => (i : Int)) n = n * (n + 1) := by
  induction n with
  | zero => simp [summ_zero]
  | succ n ih => rw [summ_succ, mul_add, ih]; push_cast; ring

theorem summ_sq (n : Nat) : 6 * summ (fun i => (i : Int) * i) n = n * (n + 1) * (2 * n + 1) := by
  induction n with
  | zero => simp [summ_zero]
  | succ n ih => rw [summ_succ, mul_add, ih]; push_cast; ring

/-! ## The cache -/

/-- The cache holds correct prefix sums of `f` only, among them those of `1, ..., s`. -/
structure Good (f : Nat → Int) (s : Nat) (cache : Cache) : Prop where
  sound : ∀ k v, cache.lookup k = some v → v = summ f k
  have_ : ∀ k, 0 < k → k ≤ s → (cache.lookup k).isSome

theorem Good.cons {f : Nat → Int} {s : Nat} {cache : Cache} (h : Good f s cache) (k : Nat) (v : Int)
    (hv : v = summ f k) : Good f s ((k, v) :: cache) := by
  constructor
  · intro k' v' h'
    rw [List.lookup_cons] at h'
    split at h'
    · rename_i heq
      rw [beq_iff_eq] at heq
      obtain rfl := heq
      injection h' with h'
      rw [← h', hv]
    · exact h.sound _ _ h'
  · intro k' h0 hs
    rw [List.lookup_cons]
    split
    · rfl
    · exact h.have_ k' h0 hs

theorem prefixCache_spec {table : List Int} {w t : Nat → Int} {f : Nat → Int} {s : Nat}
    (htab : Tab (s + 1) table t) (hf : ∀ i, f i = w i * t i) (k j : Nat) (hkj : j + k = s) (hj : 0 < j)
    (cache : Cache) (hc : Good f j cache) :
    ∃ c, prefixCache table w (List.range' (j + 1) k) cache = .ok c ∧ Good f s c := by
  induction k generalizing j cache with
  | zero => exact ⟨cache, rfl, by rw [← hkj]; exact hc⟩
  | succ k ih =>
    rw [List.range'_succ]
    unfold prefixCache
    rw [Nat.add_sub_cancel]
    obtain ⟨v, hv⟩ := Option.isSome_iff_exists.1 (hc.have_ j hj (le_refl _))
    rw [hv, htab.get (j + 1) (by omega)]
    dsimp only
    have hvs := hc.sound _ _ hv
    have hnew : v + w (j + 1) * t (j + 1) = summ f (j + 1) := by rw [summ_succ, hvs, hf]
    apply ih (j + 1) (by omega) (by omega)
    have h1 := hc.cons (j + 1) _ hnew
    refine ⟨h1.sound, ?_⟩
    intro k' h0 hs
    by_cases hk : k' ≤ j
    · exact h1.have_ k' h0 hk
    · have : k' = j + 1 := by omega
      subst this
      simp

theorem Good.init {f : Nat → Int} (h1 : f 1 = 1) : Good f 1 [(1, 1)] := by
  have hs : summ f 1 = 1 := by rw [summ_succ, summ_zero, h1]; rfl
  constructor
  · intro k v h
    rw [List.lookup_cons] at h
    split at h
    · rename_i heq
      rw [beq_iff_eq] at heq
      subst heq
      injection h with h
      rw [← h, hs]
    · simp at h
  · intro k h0 hk
    have : k = 1 := by omega
    subst this; rfl

/-- What a correct inner function does on arguments below `n`. -/
def RecOk (f : Nat → Int) (s n : Nat) (rec : Nat → Cache → Except PyErr (Int × Cache)) : Prop :=
  ∀ m cache, 0 < m → m < n → Good f s cache →
    ∃ c, rec m cache = .ok (summ f m, c) ∧ Good f s c

/-! ## euler_phi_sum -/

theorem phiSumLoop_spec {f : Nat → Int} {s n : Nat} {table : List Int}
    (htab : Tab (s + 1) table f) (rec : Nat → Cache → Except PyErr (Int × Cache))
    (hrec : RecOk f s n rec) (ds : List Nat) (hds : ∀ d ∈ ds, 2 ≤ d ∧ d ≤ s ∧ d ≤ n)
    (value : Int) (cache : Cache) (hc : Good f s cache) :
    ∃ c, phiSumLoop rec table n ds value cache =
      .ok (value + (ds.map (fun d => summ f (n / d) + f d * (n / d : Nat))).sum, c) ∧ Good f s c := by
  induction ds generalizing value cache with
  | nil => exact ⟨cache, by simp [phiSumLoop], hc⟩
  | cons d ds ih =>
    obtain ⟨h1, h2, h3⟩ := hds d (by simp)
    unfold phiSumLoop
    obtain ⟨c1, hc1, hg1⟩ := hrec (n / d) cache (Nat.div_pos h3 (by omega))
      (Nat.div_lt_self (by omega) (by omega)) hc
    rw [hc1]
    dsimp only
    rw [htab.get d (by omega)]
    dsimp only
    obtain ⟨c, hc2, hg⟩ := ih (fun q hq => hds q (by simp [hq]))
      (value + (summ f (n / d) + f d * (n / d : Nat))) c1 hg1
    refine ⟨c, ?_, hg⟩
    rw [hc2, List.map_cons, List.sum_cons, add_assoc value]

/-- `sq` is the exact floor square root on `[0, N]`. -/
def ExactSqrt (sq : Nat → Nat) (N : Nat) : Prop :=
  ∀ m, m ≤ N → sq m * sq m ≤ m ∧ m < (sq m + 1) * (sq m + 1)

theorem ExactSqrt.mono {sq : Nat → Nat} {N : Nat} (h : ExactSqrt sq N) {m : Nat} (hm : m ≤ N) :
    sq m ≤ sq N := by
  obtain ⟨h1, -⟩ := h m hm
  obtain ⟨-, h2⟩ := h N (le_refl _)
  by_contra hc
  have := Nat.mul_le_mul (by omega : sq N + 1 ≤ sq m) (by omega : sq N + 1 ≤ sq m)
  omega

theorem ExactSqrt.pos {sq : Nat → Nat} {N : Nat} (h : ExactSqrt sq N) {m : Nat} (hm : m ≤ N)
    (h0 : 0 < m) : 0 < sq m := by
  obtain ⟨-, h2⟩ := h m hm
  rcases Nat.eq_zero_or_pos (sq m) with h | h
  · rw [h] at h2; omega
  · exact h

theorem ExactSqrt.le {sq : Nat → Nat} {N : Nat} (h : ExactSqrt sq N) {m : Nat} (hm : m ≤ N) :
    sq m ≤ m := by
  obtain ⟨h1, -⟩ := h m hm
  rcases Nat.eq_zero_or_pos (sq m) with h | h
  · omega
  · have := Nat.mul_le_mul_left (sq m) h; omega

theorem phiS_spec {f : Nat → Int} {sq : Nat → Nat} {N : Nat} {table : List Int}
    (hsq : ExactSqrt sq N) (htab : Tab (sq N + 1) table f) (h1 : f 1 = 1)
    (htotal : ∀ n, ∑ x ∈ (Ioc 0 n ×ˢ Ioc 0 n).filter (fun x => x.1 * x.2 ≤ n), f x.1 * 1 =
      ((n : Int) * (n + 1)).fdiv 2)
    (fuel n : Nat) (hf : n < fuel) (h0 : 0 < n) (hn : n ≤ N) (cache : Cache)
    (hc : Good f (sq N) cache) :
    ∃ c, phiS sq table fuel n cache = .ok (summ f n, c) ∧ Good f (sq N) c := by
  induction fuel generalizing n cache with
  | zero => omega
  | succ fuel ih =>
    unfold phiS
    split
    · rename_i v hv
      exact ⟨cache, by rw [hc.sound _ _ hv], hc⟩
    · obtain ⟨cr, hcr⟩ := Option.isSome_iff_exists.1
        (hc.have_ (sq n) (hsq.pos hn h0) (hsq.mono hn))
      rw [hcr]
      dsimp only
      obtain ⟨c, hc1, hg⟩ := phiSumLoop_spec (n := n) htab (phiS sq table fuel)
        (fun m cache hm hmn hc => ih m (by omega) hm (by omega) cache hc)
        (pyRange 2 (sq n + 1)) (fun d hd => by
          rw [mem_pyRange] at hd
          have := hsq.mono hn
          have := hsq.le hn
          omega) (n - sq n * cr) cache hc
      rw [hc1]
      dsimp only
      have hval : ((n : Int) * (n + 1)).fdiv 2 - (n - sq n * cr +
          ((pyRange 2 (sq n + 1)).map (fun d => summ f (n / d) + f d * (n / d : Nat))).sum) =
          summ f n := by
        rw [hc.sound _ _ hcr, sum_pyRange_two _ (hsq.pos hn h0), ← htotal,
          hyperbola f (fun _ => 1) (hsq n hn).1 (hsq n hn).2]
        have e : (fun d => f d * summ (fun _ => 1) (n / d) + 1 * summ f (n / d)) =
            (fun d => summ f (n / d) + f d * (n / d : Nat)) := by
          funext d; rw [summ_one]; ring
        rw [e, summ_one, h1, Nat.div_one]
        ring
      rw [hval]
      exact ⟨_, rfl, hg.cons n _ rfl⟩

theorem phi_total (n : Nat) :
    ∑ x ∈ (Ioc 0 n ×ˢ Ioc 0 n).filter (fun x => x.1 * x.2 ≤ n), (Nat.totient x.1 : Int) * 1 =
      ((n : Int) * (n + 1)).fdiv 2 := by
  rw [← sum_pairs (fun i _ => (Nat.totient i : Int) * 1)]
  have : ∀ m ∈ Ioc 0 n, ∑ x ∈ m.divisorsAntidiagonal, (Nat.totient x.1 : Int) * 1 = m := by
    intro m _
    rw [sum_antidiag (fun i => (Nat.totient i : Int) * 1)]
    simp only [mul_one]
    exact_mod_cast Nat.sum_totient m
  rw [sum_congr rfl this]
  have h := summ_id n
  unfold summ at h
  rw [← h, Int.fdiv_eq_ediv_of_nonneg _ (by omega), Int.mul_ediv_cancel_left _ (by omega)]

/-! ## euler_phi_weighted_sum -/

theorem tableSum_spec {t : Nat → Int} {s : Nat} {table : List Int} (htab : Tab (s + 1) table t)
    (F : Nat → Int → Int) (ds : List Nat) (hds : ∀ d ∈ ds, d ≤ s) (acc : Int) :
    tableSum F table ds acc = .ok (acc + (ds.map (fun d => F d (t d))).sum) := by
  induction ds generalizing acc with
  | nil => simp [tableSum]
  | cons d ds ih =>
    unfold tableSum
    rw [htab.get d (by have := hds d (by simp); omega)]
    dsimp only
    rw [ih (fun q hq => hds q (by simp [hq])), List.map_cons, List.sum_cons, add_assoc]

theorem weightedLoop_spec {f : Nat → Int} {s n : Nat}
    (rec : Nat → Cache → Except PyErr (Int × Cache))
    (hrec : RecOk f s n rec) (ds : List Nat) (hds : ∀ d ∈ ds, 2 ≤ d ∧ d ≤ n)
    (acc : Int) (cache : Cache) (hc : Good f s cache) :
    ∃ c, weightedLoop rec n ds acc cache =
      .ok (acc + (ds.map (fun d : Nat => (d : Int) * (summ f (n / d) - summ f (d - 1)))).sum, c) ∧
      Good f s c := by
  induction ds generalizing acc cache with
  | nil => exact ⟨cache, by simp [weightedLoop], hc⟩
  | cons d ds ih =>
    obtain ⟨h1, h3⟩ := hds d (by simp)
    unfold weightedLoop
    obtain ⟨c1, hc1, hg1⟩ := hrec (n / d) cache (Nat.div_pos h3 (by omega))
      (Nat.div_lt_self (by omega) (by omega)) hc
    rw [hc1]
    dsimp only
    obtain ⟨c2, hc2, hg2⟩ := hrec (d - 1) c1 (by omega) (by omega) hg1
    rw [hc2]
    dsimp only
    obtain ⟨c, hc3, hg⟩ := ih (fun q hq => hds q (by simp [hq]))
      (acc + d * (summ f (n / d) - summ f (d - 1))) c2 hg2
    refine ⟨c, ?_, hg⟩
    rw [hc3, List.map_cons, List.sum_cons, add_assoc acc]

theorem half_range (n d : Nat) (hd : 0 < d) :
    ((n / d : Nat) - (d : Int) + 1) * ((n / d : Nat) + d) =
      2 * (summ (fun i => (i : Int)) (n / d) - summ (fun i => (i : Int)) (d - 1)) := by
  rw [mul_sub, summ_id, summ_id]
  have : ((d - 1 : Nat) : Int) = d - 1 := by omega
  rw [this]; ring

theorem weightedT_spec {φ : Nat → Int} {sq : Nat → Nat} {N : Nat} {table : List Int}
    (hsq : ExactSqrt sq N) (htab : Tab (sq N + 1) table φ) (h1 : φ 1 = 1)
    (htotal : ∀ n : Nat, ∑ x ∈ (Ioc 0 n ×ˢ Ioc 0 n).filter (fun x => x.1 * x.2 ≤ n),
      ((x.1 : Int) * φ x.1) * x.2 = ((n : Int) * (n + 1) * (2 * n + 1)).fdiv 6)
    (fuel n : Nat) (hf : n < fuel) (h0 : 0 < n) (hn : n ≤ N) (cache : Cache)
    (hc : Good (fun i => (i : Int) * φ i) (sq N) cache) :
    ∃ c, weightedT sq table fuel n cache = .ok (summ (fun i => (i : Int) * φ i) n, c) ∧
      Good (fun i => (i : Int) * φ i) (sq N) c := by
  induction fuel generalizing n cache with
  | zero => omega
  | succ fuel ih =>
    unfold weightedT
    split
    · rename_i v hv
      exact ⟨cache, by rw [hc.sound _ _ hv], hc⟩
    · dsimp only
      have hmono := hsq.mono hn
      have hle := hsq.le hn
      rw [tableSum_spec htab _ _ (fun d hd => by rw [mem_pyRange] at hd; omega)]
      dsimp only
      obtain ⟨c, hc1, hg⟩ := weightedLoop_spec (n := n) (weightedT sq table fuel)
        (fun m cache hm hmn hc => ih m (by omega) hm (by omega) cache hc)
        (pyRange 2 (sq n + 1)) (fun d hd => by rw [mem_pyRange] at hd; omega) 0 cache hc
      rw [hc1]
      dsimp only
      rw [tableSum_spec htab _ _ (fun d hd => by rw [mem_pyRange] at hd; omega)]
      dsimp only
      rw [zero_add, zero_add, zero_add, sum_pyRange, sum_pyRange, sum_pyRange_two _ (hsq.pos hn h0),
        ← htotal, hyperbola' (fun i => (i : Int) * φ i) (fun i => (i : Int)) (hsq n hn).1 (hsq n hn).2]
      have e : summ (fun d => (d : Int) * φ d * (summ (fun i => (i : Int)) (n / d) -
            summ (fun i => (i : Int)) (d - 1)) + d * (summ (fun i => (i : Int) * φ i) (n / d) -
            summ (fun i => (i : Int) * φ i) (d - 1)) - (d : Int) * φ d * d) (sq n) =
          summ (fun d => ((d : Int) * φ d * ((n / d : Nat) - (d : Int) + 1) *
            ((n / d : Nat) + (d : Int))).fdiv 2) (sq n) +
          summ (fun d => (d : Int) * (summ (fun i => (i : Int) * φ i) (n / d) -
            summ (fun i => (i : Int) * φ i) (d - 1))) (sq n) -
          summ (fun d => (d : Int) * d * φ d) (sq n) := by
        unfold summ
        rw [← sum_add_distrib, ← sum_sub_distrib]
        apply sum_congr rfl
        intro d hd
        rw [mem_Ioc] at hd
        have h2 : ((d : Int) * φ d * ((n / d : Nat) - (d : Int) + 1) *
            ((n / d : Nat) + (d : Int))).fdiv 2 = (d : Int) * φ d *
            (summ (fun i => (i : Int)) (n / d) - summ (fun i => (i : Int)) (d - 1)) := by
          rw [mul_assoc, half_range n d hd.1, Int.fdiv_eq_ediv_of_nonneg _ (by omega),
            mul_left_comm, Int.mul_ediv_cancel_left _ (by omega)]
        rw [h2]
        unfold summ
        ring
      rw [e]
      have hval : ∀ a b c x : Int, a + b - c - (a + (b - 1 * (x - 0)) - c) = x := by
        intros; ring
      simp only [Nat.div_one, Nat.sub_self, summ_zero, Nat.cast_one]
      rw [hval]
      exact ⟨_, rfl, hg.cons n _ rfl⟩

theorem weighted_total (n : Nat) :
    ∑ x ∈ (Ioc 0 n ×ˢ Ioc 0 n).filter (fun x => x.1 * x.2 ≤ n),
      ((x.1 : Int) * Nat.totient x.1) * x.2 = ((n : Int) * (n + 1) * (2 * n + 1)).fdiv 6 := by
  rw [← sum_pairs (fun i j => ((i : Int) * Nat.totient i) * j)]
  have : ∀ m ∈ Ioc 0 n, ∑ x ∈ m.divisorsAntidiagonal, ((x.1 : Int) * Nat.totient x.1) * x.2 =
      (m : Int) * m := by
    intro m _
    have h2 : ∀ x ∈ m.divisorsAntidiagonal, ((x.1 : Int) * Nat.totient x.1) * x.2 =
        m * Nat.totient x.1 := by
      intro x hx
      rw [Nat.mem_divisorsAntidiagonal] at hx
      rw [← hx.1]; push_cast; ring
    rw [sum_congr rfl h2, ← mul_sum, sum_antidiag (fun i => (Nat.totient i : Int))]
    congr 1
    exact_mod_cast Nat.sum_totient m
  rw [sum_congr rfl this]
  have h := summ_sq n
  unfold summ at h
  rw [← h, Int.fdiv_eq_ediv_of_nonneg _ (by omega), Int.mul_ediv_cancel_left _ (by omega)]

/-! ## moebius_sum -/

theorem moebiusSumLoop_spec {f : Nat → Int} {s n : Nat} {table : List Int}
    (htab : Tab (s + 1) table f) (rec : Nat → Cache → Except PyErr (Int × Cache))
    (hrec : RecOk f s n rec) (ds : List Nat) (hds : ∀ d ∈ ds, 2 ≤ d ∧ d ≤ s ∧ d ≤ n)
    (value : Int) (cache : Cache) (hc : Good f s cache) :
    ∃ c, moebiusSumLoop rec table n ds value cache =
      .ok (value + (ds.map (fun d => summ f (n / d) - summ f (d - 1) +
        f d * ((n / d : Nat) - d))).sum, c) ∧ Good f s c := by
  induction ds generalizing value cache with
  | nil => exact ⟨cache, by simp [moebiusSumLoop], hc⟩
  | cons d ds ih =>
    obtain ⟨h1, h2, h3⟩ := hds d (by simp)
    unfold moebiusSumLoop
    obtain ⟨c1, hc1, hg1⟩ := hrec (n / d) cache (Nat.div_pos h3 (by omega))
      (Nat.div_lt_self (by omega) (by omega)) hc
    rw [hc1]
    dsimp only
    obtain ⟨c2, hc2, hg2⟩ := hrec (d - 1) c1 (by omega) (by omega) hg1
    rw [hc2]
    dsimp only
    rw [htab.get d (by omega)]
    dsimp only
    obtain ⟨c, hc3, hg⟩ := ih (fun q hq => hds q (by simp [hq]))
      (value + (summ f (n / d) - summ f (d - 1)) + f d * ((n / d : Nat) - d)) c2 hg2
    refine ⟨c, ?_, hg⟩
    rw [hc3, List.map_cons, List.sum_cons]
    simp only [add_assoc]

theorem moebiusM_spec {f : Nat → Int} {sq : Nat → Nat} {N : Nat} {table : List Int}
    (hsq : ExactSqrt sq N) (htab : Tab (sq N + 1) table f) (h1 : f 1 = 1)
    (htotal : ∀ n, 0 < n →
      ∑ x ∈ (Ioc 0 n ×ˢ Ioc 0 n).filter (fun x => x.1 * x.2 ≤ n), f x.1 * 1 = 1)
    (fuel n : Nat) (hf : n < fuel) (h0 : 0 < n) (hn : n ≤ N) (cache : Cache)
    (hc : Good f (sq N) cache) :
    ∃ c, moebiusM sq table fuel n cache = .ok (summ f n, c) ∧ Good f (sq N) c := by
  induction fuel generalizing n cache with
  | zero => omega
  | succ fuel ih =>
    unfold moebiusM
    split
    · rename_i v hv
      exact ⟨cache, by rw [hc.sound _ _ hv], hc⟩
    · obtain ⟨c, hc1, hg⟩ := moebiusSumLoop_spec (n := n) htab (moebiusM sq table fuel)
        (fun m cache hm hmn hc => ih m (by omega) hm (by omega) cache hc)
        (pyRange 2 (sq n + 1)) (fun d hd => by
          rw [mem_pyRange] at hd
          have := hsq.mono hn
          have := hsq.le hn
          omega) (n - 1) cache hc
      rw [hc1]
      dsimp only
      have hval : 1 - ((n : Int) - 1 + ((pyRange 2 (sq n + 1)).map (fun d => summ f (n / d) -
          summ f (d - 1) + f d * ((n / d : Nat) - d))).sum) = summ f n := by
        have ht := htotal n h0
        rw [hyperbola' f (fun _ => 1) (hsq n hn).1 (hsq n hn).2] at ht
        rw [sum_pyRange_two _ (hsq.pos hn h0)]
        have e : summ (fun d => f d * (summ (fun _ => 1) (n / d) - summ (fun _ => 1) (d - 1)) +
              1 * (summ f (n / d) - summ f (d - 1)) - f d * 1) (sq n) =
            summ (fun d => summ f (n / d) - summ f (d - 1) + f d * ((n / d : Nat) - d)) (sq n) := by
          conv_lhs => unfold summ
          conv_rhs => unfold summ
          apply sum_congr rfl
          intro d hd
          rw [mem_Ioc] at hd
          have h2 : ((d - 1 : Nat) : Int) = d - 1 := by omega
          simp only [sum_const, Nat.card_Ioc, Nat.sub_zero, nsmul_eq_mul, mul_one]
          rw [h2]
          ring
        rw [e] at ht
        rw [ht, h1, Nat.div_one, Nat.sub_self, summ_zero]
        push_cast; ring
      rw [hval]
      exact ⟨_, rfl, hg.cons n _ rfl⟩

theorem moebius_total (n : Nat) (hn : 0 < n) :
    ∑ x ∈ (Ioc 0 n ×ˢ Ioc 0 n).filter (fun x => x.1 * x.2 ≤ n),
      ArithmeticFunction.moebius x.1 * 1 = 1 := by
  rw [← sum_pairs (fun i _ => ArithmeticFunction.moebius i * 1)]
  have : ∀ m ∈ Ioc 0 n, ∑ x ∈ m.divisorsAntidiagonal, ArithmeticFunction.moebius x.1 * 1 =
      if m = 1 then 1 else 0 := by
    intro m hm
    rw [sum_antidiag (fun i => ArithmeticFunction.moebius i * 1)]
    simp only [mul_one]
    have := congrArg (fun h => h m) ArithmeticFunction.moebius_mul_coe_zeta
    simp only [ArithmeticFunction.coe_mul_zeta_apply, ArithmeticFunction.one_apply] at this
    exact this
  rw [sum_congr rfl this, Finset.sum_ite_eq']
  simp [mem_Ioc]; omega

/-! ## sigma_sum -/

theorem sigmaSumLoop_eq (n : Nat) (ks : List Nat) (value : Int) :
    sigmaSumLoop n ks value = value + (ks.map (fun k : Nat => 2 * (k : Int) * ((n / k : Nat) - k + 1) +
      ((n / k : Nat) - (k : Int) + 1) * ((n / k : Nat) + k))).sum := by
  induction ks generalizing value with
  | nil => simp [sigmaSumLoop]
  | cons k ks ih =>
    rw [sigmaSumLoop, ih, List.map_cons, List.sum_cons]
    ring

theorem sigma_total (n : Nat) :
    ∑ x ∈ (Ioc 0 n ×ˢ Ioc 0 n).filter (fun x => x.1 * x.2 ≤ n), (x.1 : Int) * 1 =
      summ (fun m => ((∑ d ∈ m.divisors, d : Nat) : Int)) n := by
  rw [← sum_pairs (fun i _ => (i : Int) * 1)]
  unfold summ
  apply sum_congr rfl
  intro m _
  rw [sum_antidiag (fun i => (i : Int) * 1)]
  simp

theorem sigmaSum_value {n r : Nat} (h1 : r * r ≤ n) (h2 : n < (r + 1) * (r + 1)) :
    (sigmaSumLoop n (pyRange 1 (r + 1)) (-(r : Int) * (r + 1))).fdiv 2 =
      summ (fun m => ((∑ d ∈ m.divisors, d : Nat) : Int)) n := by
  rw [sigmaSumLoop_eq, sum_pyRange, ← sigma_total, hyperbola' (fun i => (i : Int)) (fun _ => 1) h1 h2]
  have : -(r : Int) * (r + 1) + summ (fun k => 2 * (k : Int) * ((n / k : Nat) - k + 1) +
      ((n / k : Nat) - (k : Int) + 1) * ((n / k : Nat) + k)) r =
      2 * summ (fun d => (d : Int) * (summ (fun _ => 1) (n / d) - summ (fun _ => 1) (d - 1)) +
        1 * (summ (fun i => (i : Int)) (n / d) - summ (fun i => (i : Int)) (d - 1)) - d * 1) r := by
    rw [neg_mul, ← summ_id]
    conv_lhs => unfold summ
    conv_rhs => unfold summ
    rw [mul_sum, mul_sum, neg_add_eq_sub, ← sum_sub_distrib]
    apply sum_congr rfl
    intro d hd
    rw [mem_Ioc] at hd
    rw [half_range n d hd.1]
    have h2 : ((d - 1 : Nat) : Int) = d - 1 := by omega
    unfold summ
    simp only [sum_const, Nat.card_Ioc, Nat.sub_zero, nsmul_eq_mul, mul_one]
    rw [h2]
    ring
  rw [this, Int.fdiv_eq_ediv_of_nonneg _ (by omega), Int.mul_ediv_cancel_left _ (by omega)]

end Rosemary.Sums
