import Verif.Model.RandomTests
import Verif.Props.Primality
import Verif.Lemmas.Liars
import Verif.Lemmas.RandomRuns

/-!
# Properties C148 and C149: the error probability of the probable prime tests
-/

namespace Rosemary.Props

open Rosemary Rosemary.Core Rosemary.Primality Rosemary.Factorization Rosemary.Spec Rosemary.RandomRuns Rosemary.Liars
open MeasureTheory
open scoped ENNReal

/-! ## Preparations -/

private theorem ratio_lt {c N k : ℕ} (hk : 0 < k) (h : k * c < N) : (c : ℝ≥0∞) / N < 1 / k := by
  have hN : (N : ℝ≥0∞) ≠ 0 := by norm_cast; omega
  have hk0 : (k : ℝ≥0∞) ≠ 0 := by norm_cast; omega
  rw [ENNReal.div_lt_iff (Or.inl hN) (Or.inl (ENNReal.natCast_ne_top N)), mul_comm, mul_one_div,
    ENNReal.lt_div_iff_mul_lt (Or.inl hk0) (Or.inl (ENNReal.natCast_ne_top k))]
  norm_cast
  rwa [mul_comm]

/-- If at most `1 / k` of the units pass, where `1` and `-1` always do. -/
private theorem count_le {n : ℕ} (hn : 4 ≤ n) (H : Subgroup (ZMod n)ˣ) (P : ℤ → Prop) [DecidablePred P]
    (h : ∀ a : ℕ, a < n → P a → ∃ u ∈ H, (u : ZMod n) = a) (e : Finset ℕ) (he : ∀ a ∈ e, a = 1 ∨ a = n - 1)
    (he' : ∀ a ∈ e, ∃ u ∈ H, (u : ZMod n) = a) :
    ((Finset.Icc (2 : ℤ) ((n : ℤ) - 2)).filter P).card + e.card ≤ Nat.card H := by
  classical
  set s := ((Finset.Icc (2 : ℤ) ((n : ℤ) - 2)).filter P).image Int.toNat with hs
  have h1 : s.card = ((Finset.Icc (2 : ℤ) ((n : ℤ) - 2)).filter P).card := by
    refine Finset.card_image_of_injOn fun a ha b hb hab => ?_
    rw [Finset.mem_coe, Finset.mem_filter, Finset.mem_Icc] at ha hb
    omega
  have hmem : ∀ a ∈ s, 2 ≤ a ∧ a ≤ n - 2 ∧ P a := by
    intro a ha
    obtain ⟨b, hb, rfl⟩ := Finset.mem_image.1 ha
    rw [Finset.mem_filter, Finset.mem_Icc] at hb
    refine ⟨by omega, by omega, ?_⟩
    rw [Int.toNat_of_nonneg (by omega)]
    exact hb.2
  have hdis : Disjoint s e := by
    rw [Finset.disjoint_left]
    intro a ha he2
    have := hmem a ha
    have := he a he2
    omega
  rw [← h1, ← Finset.card_union_of_disjoint hdis]
  refine card_le_of_units (by omega) H _ ?_ ?_
  · intro a ha
    rcases Finset.mem_union.1 ha with h | h
    · have := hmem a h; omega
    · have := he a h; omega
  · intro a ha
    rcases Finset.mem_union.1 ha with h2 | h2
    · have := hmem a h2
      exact h a (by omega) this.2.2
    · exact he' a h2

private theorem cast_pred {n : ℕ} (hn : 1 ≤ n) : ((n - 1 : ℕ) : ZMod n) = -1 := by
  rw [Nat.cast_sub hn, ZMod.natCast_self]; simp

/-! ## C148 -/

private theorem solovay_true {n : ℕ} (hodd : n % 2 = 1) (hn : 1 < n) {a : ℕ} (ha : a < n)
    (h : solovayStrassen n a = .ok true) : a.Coprime n ∧ ∃ u ∈ euler n hn, (u : ZMod n) = a := by
  have : NeZero n := ⟨by omega⟩
  unfold solovayStrassen at h
  rw [(C12_jacobi_symbol a n).1 (Nat.odd_iff.2 hodd)] at h
  dsimp only at h
  split at h
  · cases h
  · rename_i h1
    push Not at h1
    obtain ⟨h2, h3⟩ := h1
    have hc : a.Coprime n := by
      by_contra hg
      exact h2 (jacobiSym.eq_zero_iff_not_coprime.2 (by simpa [Nat.Coprime, Int.gcd_natCast_natCast] using hg))
    refine ⟨hc, ZMod.unitOfCoprime a hc, ?_, ZMod.coe_unitOfCoprime a hc⟩
    rw [mem_euler, jac, ZMod.coe_unitOfCoprime, ZMod.val_natCast_of_lt ha]
    rw [Int.fmod_eq_emod_of_nonneg _ (by positivity)] at h3
    have := (ZMod.intCast_eq_intCast_iff _ _ _).2 h3
    rw [this]
    push_cast
    rfl

/-- C148: for odd composite `n`, `solovay_strassen(n, a)` returns False for at least half of the `a` coprime to `n`. -/
theorem C148_half_reject (n : ℕ) (hodd : n % 2 = 1) (hn : 1 < n) (hc : ¬ n.Prime) :
    n.totient ≤ 2 * ((Finset.range n).filter (fun a : ℕ => a.Coprime n ∧ solovayStrassen n a = .ok false)).card := by
  classical
  have h1 := two_card_euler hodd hn hc
  have h2 := card_le_of_units hn (euler n hn)
    ((Finset.range n).filter (fun a : ℕ => a.Coprime n ∧ solovayStrassen n a = .ok true))
    (fun a ha => Finset.mem_range.1 (Finset.mem_filter.1 ha).1)
    (fun a ha => (solovay_true hodd hn (Finset.mem_range.1 (Finset.mem_filter.1 ha).1) (Finset.mem_filter.1 ha).2.2).2)
  have h3 : n.totient ≤ ((Finset.range n).filter (fun a : ℕ => a.Coprime n ∧ solovayStrassen n a = .ok true)).card +
      ((Finset.range n).filter (fun a : ℕ => a.Coprime n ∧ solovayStrassen n a = .ok false)).card := by
    rw [Nat.totient]
    refine le_trans (Finset.card_le_card ?_) (Finset.card_union_le _ _)
    intro a ha
    rw [Finset.mem_filter] at ha
    have hb : ∃ b, solovayStrassen n (a : ℤ) = .ok b := by
      unfold solovayStrassen
      rw [(C12_jacobi_symbol a n).1 (Nat.odd_iff.2 hodd)]
      dsimp only
      split <;> exact ⟨_, rfl⟩
    obtain ⟨b, hb⟩ := hb
    rw [Finset.mem_union, Finset.mem_filter, Finset.mem_filter]
    cases b
    · right; exact ⟨ha.1, ha.2.symm, hb⟩
    · left; exact ⟨ha.1, ha.2.symm, hb⟩
  omega

/-- C148: the likelihood that `solovay_strassen(n)` returns True for an odd composite `n` is less than 1/2. -/
theorem C148_solovay_strassen_error (n : ℕ) (hodd : n % 2 = 1) (hn : 1 < n) (hc : ¬ n.Prime) :
    randintLaw 2 ((n : ℤ) - 2) {x | solovayStrassenCall n x = .ok true} < 1 / 2 := by
  classical
  have h9 : 4 ≤ n := by
    by_contra h
    have : n = 3 := by omega
    exact hc (this ▸ Nat.prime_three)
  have h1 := two_card_euler hodd hn hc
  have h2 : n.totient ≠ n - 1 := fun h => hc ((Nat.totient_eq_iff_prime (by omega)).1 h)
  have h3 := Nat.totient_lt n hn
  have h4 := count_le h9 (euler n hn) (fun x => solovayStrassenCall n x = .ok true)
    (by
      intro a ha h
      unfold solovayStrassenCall randintOf at h
      rw [if_neg (by omega)] at h
      exact (solovay_true hodd hn ha h).2)
    {1} (by simp) (by
      intro a ha
      rw [Finset.mem_singleton] at ha
      subst ha
      exact ⟨1, one_mem _, by simp⟩)
  rw [Finset.card_singleton] at h4
  rw [randintLaw_set (by omega)]
  have := ratio_lt (c := ((Finset.Icc (2 : ℤ) ((n : ℤ) - 2)).filter fun x => solovayStrassenCall n x = .ok true).card)
    (N := ((n : ℤ) - 2 + 1 - 2).toNat) (k := 2) (by norm_num) (by omega)
  exact_mod_cast this

/-- C148: repeating the test `k` times, an odd composite number passes with probability at most `1 / 2 ^ k`. -/
theorem C148_solovay_strassen_repeated (n : ℕ) (hodd : n % 2 = 1) (hn : 1 < n) (hc : ¬ n.Prime) (k : ℕ) :
    Measure.infinitePi (fun _ : ℕ => randintLaw 2 ((n : ℤ) - 2)) {ω | ∀ i < k, solovayStrassenCall n (ω i) = .ok true} ≤
      (1 / 2) ^ k :=
  repeated_le _ (C148_solovay_strassen_error n hodd hn hc).le k

/-- C148: for a prime `n ≥ 5` the answer is always True; for `n ≤ 3` there is no base to draw and ValueError is raised. -/
theorem C148_solovay_strassen_prime (n : ℕ) (x : ℤ) :
    (n.Prime → 5 ≤ n → 2 ≤ x → x ≤ n - 2 → solovayStrassenCall n x = .ok true) ∧
      (n ≤ 3 → solovayStrassenCall n x = .error .valueError) := by
  constructor
  · intro hp h5 h1 h2
    unfold solovayStrassenCall randintOf
    rw [if_neg (by omega)]
    refine C15_solovay_strassen n x hp (by omega) fun hd => ?_
    have := Int.le_of_dvd (by omega) hd
    omega
  · intro h
    unfold solovayStrassenCall randintOf
    rw [if_pos (by omega)]

/-! ## C149 -/

private theorem miller_true {n : ℕ} (hodd : n % 2 = 1) (hn : 1 < n) {t s k a : ℕ} (hts : n - 1 = t * 2 ^ s) (ht : Odd t)
    (hk : ∀ j, (∃ u : (ZMod n)ˣ, u ^ 2 ^ j = -1) → j ≤ k) (h : millerRabin n a = true) :
    ∃ u ∈ signPow n n (t * 2 ^ k) dvd_rfl, (u : ZMod n) = a := by
  have : NeZero n := ⟨by omega⟩
  rw [C15_miller_rabin_exact n a t s (by omega) hts ht] at h
  have ht0 : t ≠ 0 := by rintro rfl; simp at ht
  have key : (a : ZMod n) ^ t = 1 ∨ ∃ i, (a : ZMod n) ^ (t * 2 ^ i) = -1 := by
    rcases h with h | ⟨i, -, h⟩
    · left
      have := (ZMod.natCast_eq_natCast_iff _ _ _).2 h
      simpa using this
    · right
      refine ⟨i, ?_⟩
      have := (ZMod.natCast_eq_natCast_iff _ _ _).2 h
      rw [cast_pred hn.le] at this
      simpa using this
  have hu : IsUnit (a : ZMod n) := by
    rcases key with h | ⟨i, h⟩
    · exact IsUnit.of_pow_eq_one h ht0
    · have h2 : (a : ZMod n) ^ (t * 2 ^ i * 2) = 1 := by rw [pow_mul, h]; simp
      exact IsUnit.of_pow_eq_one h2 (by positivity)
  obtain ⟨u, hu⟩ := hu
  refine ⟨u, ?_, hu⟩
  rw [signPow_self_mem]
  rcases key with h | ⟨i, h⟩
  · left
    ext
    rw [Units.val_pow_eq_pow_val, hu, pow_mul, h, one_pow, Units.val_one]
  · have h1 : u ^ (t * 2 ^ i) = -1 := by
      ext
      rw [Units.val_pow_eq_pow_val, hu, h]; simp
    have hik : i ≤ k := hk i ⟨u ^ t, by rw [← pow_mul, h1]⟩
    obtain ⟨j, rfl⟩ := Nat.exists_eq_add_of_le hik
    rw [pow_add, ← mul_assoc, pow_mul, h1]
    exact neg_one_pow_eq_or _ _

private theorem miller_group {n : ℕ} (hodd : n % 2 = 1) (hn : 1 < n) (hc : ¬ n.Prime) :
    ∃ H : Subgroup (ZMod n)ˣ, 4 * Nat.card H ≤ n - 1 ∧ -1 ∈ H ∧
      ∀ a : ℕ, millerRabin n a = true → ∃ u ∈ H, (u : ZMod n) = a := by
  obtain ⟨k, ⟨v, hv⟩, hmax⟩ := exists_max_root hodd hn
  obtain ⟨s, t, ht, hts⟩ := Nat.exists_eq_two_pow_mul_odd (show n - 1 ≠ 0 by omega)
  have h1 := (Nat.modEq_iff_dvd' hn.le).1 (two_pow_dvd hodd hv).symm
  have h2 : k + 1 ≤ s := by
    rw [hts] at h1
    have h3 : 2 ^ (k + 1) ∣ 2 ^ s :=
      (Nat.Coprime.pow_left (k + 1) (Nat.coprime_two_left.2 ht)).dvd_of_dvd_mul_right h1
    exact (Nat.pow_dvd_pow_iff_le_right (by norm_num)).1 h3
  refine ⟨signPow n n (t * 2 ^ k) dvd_rfl, ?_, ?_, ?_⟩
  · refine four_card_le hodd hn hc (u := v) ?_ ?_
    · rw [mul_comm, pow_mul, hv]; exact ht.neg_one_pow
    · rw [hts, show 2 * (t * 2 ^ k) = 2 ^ (k + 1) * t by ring]
      exact Nat.mul_dvd_mul_right (pow_dvd_pow 2 h2) t
  · rw [signPow_self_mem]
    exact neg_one_pow_eq_or _ _
  · intro a h
    exact miller_true hodd hn (by rw [hts, mul_comm]) ht hmax h

/-- C149 (theorem of Rabin and Monier): for odd composite `n`, `miller_rabin(n, a)` returns True for at most a quarter of the
`a` from 1 to `n - 1`. -/
theorem C149_quarter_accept (n : ℕ) (hodd : n % 2 = 1) (hn : 1 < n) (hc : ¬ n.Prime) :
    4 * ((Finset.Icc 1 (n - 1)).filter (fun a => millerRabin n a = true)).card ≤ n - 1 := by
  obtain ⟨H, h1, -, h2⟩ := miller_group hodd hn hc
  have h3 := card_le_of_units hn H ((Finset.Icc 1 (n - 1)).filter (fun a => millerRabin n a = true))
    (fun a ha => by
      have := Finset.mem_Icc.1 (Finset.mem_filter.1 ha).1
      omega)
    (fun a ha => h2 a (Finset.mem_filter.1 ha).2)
  omega

/-- C149: the probability that `miller_rabin(n)` returns True for an odd composite `n` is less than 1/4. -/
theorem C149_miller_rabin_error (n : ℕ) (hodd : n % 2 = 1) (hn : 1 < n) (hc : ¬ n.Prime) :
    randintLaw 2 ((n : ℤ) - 2) {x | millerRabinCall n x = .ok true} < 1 / 4 := by
  classical
  have h9 : 4 ≤ n := by
    by_contra h
    have : n = 3 := by omega
    exact hc (this ▸ Nat.prime_three)
  obtain ⟨H, h1, hneg, h2⟩ := miller_group hodd hn hc
  have h4 := count_le h9 H (fun x => millerRabinCall n x = .ok true)
    (by
      intro a ha h
      unfold millerRabinCall randintOf at h
      rw [if_neg (by omega)] at h
      dsimp only at h
      rw [Except.ok.injEq, Int.toNat_natCast] at h
      exact h2 a h)
    {1, n - 1} (by simp) (by
      intro a ha
      rw [Finset.mem_insert, Finset.mem_singleton] at ha
      rcases ha with rfl | rfl
      · exact ⟨1, one_mem _, by simp⟩
      · exact ⟨-1, hneg, by rw [cast_pred hn.le]; simp⟩)
  rw [Finset.card_pair (by omega)] at h4
  rw [randintLaw_set (by omega)]
  have := ratio_lt (c := ((Finset.Icc (2 : ℤ) ((n : ℤ) - 2)).filter fun x => millerRabinCall n x = .ok true).card)
    (N := ((n : ℤ) - 2 + 1 - 2).toNat) (k := 4) (by norm_num) (by omega)
  exact_mod_cast this

/-- C149: repeating the test `k` times, an odd composite number passes with probability at most `1 / 4 ^ k`. -/
theorem C149_miller_rabin_repeated (n : ℕ) (hodd : n % 2 = 1) (hn : 1 < n) (hc : ¬ n.Prime) (k : ℕ) :
    Measure.infinitePi (fun _ : ℕ => randintLaw 2 ((n : ℤ) - 2)) {ω | ∀ i < k, millerRabinCall n (ω i) = .ok true} ≤
      (1 / 4) ^ k :=
  repeated_le _ (C149_miller_rabin_error n hodd hn hc).le k

/-- C149: for a prime `n ≥ 5` the answer is always True; for `n ≤ 3` there is no base to draw and ValueError is raised. -/
theorem C149_miller_rabin_prime (n : ℕ) (x : ℤ) :
    (n.Prime → 5 ≤ n → 2 ≤ x → x ≤ n - 2 → millerRabinCall n x = .ok true) ∧
      (n ≤ 3 → millerRabinCall n x = .error .valueError) := by
  constructor
  · intro hp h5 h1 h2
    unfold millerRabinCall randintOf
    rw [if_neg (by omega)]
    dsimp only
    rw [C15_miller_rabin_prime n x.toNat hp fun hd => ?_]
    have := Nat.le_of_dvd (by omega) hd
    omega
  · intro h
    unfold millerRabinCall randintOf
    rw [if_pos (by omega)]

/-- The bounds are attained: C149 for `n = 9`, where 2 of 8 bases are accepted (for `n = 91` it is 18 of 90), and C148 for
`n = 1729`, where 648 of the 1296 bases coprime to `n` are rejected. -/
example : 4 * ((Finset.Icc 1 8).filter (fun a => millerRabin 9 a = true)).card = 8 ∧
    ((Finset.Icc 1 90).filter (fun a => millerRabin 91 a = true)).card = 18 ∧
    ((Finset.range 1729).filter (fun a : ℕ => a.Coprime 1729 ∧ solovayStrassen 1729 a = .ok false)).card = 648 := by
  refine ⟨by decide +kernel, by decide +kernel, by decide +kernel⟩

end Rosemary.Props
