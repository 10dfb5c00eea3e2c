import Verif.Props.Factorization
import Mathlib.Logic.Function.Iterate
import Mathlib.Data.Set.Finite.Lattice

/-!
# Property C137: `pollard_rho` and `pollard_rho_brent` always return

Whatever the random choices, the sequence `x -> x*x + a mod n` is eventually periodic, so the
accumulated product becomes zero and the loops end; the second phase of Brent's variant then finds
the divisor that made the product trivial.
-/

namespace Rosemary.Props

open Rosemary Rosemary.Core Rosemary.Factorization

/-- The map iterated by both algorithms. -/
def rhoMap (n a : Int) (x : Int) : Int := (x * x + a).fmod n

theorem rhoMap_range (n a x : Int) (hn : 0 < n) : 0 ≤ rhoMap n a x ∧ rhoMap n a x < n :=
  ⟨Int.fmod_nonneg_of_pos _ hn, Int.fmod_lt_of_pos _ hn⟩

/-- The iterates are eventually periodic. -/
theorem rhoMap_periodic (n a x : Int) (hn : 0 < n) :
    ∃ μ p, 1 ≤ p ∧ ∀ m, μ ≤ m → (rhoMap n a)^[m + p] x = (rhoMap n a)^[m] x := by
  have hfin : (Set.Icc 0 n).Finite := Set.finite_Icc 0 n
  obtain ⟨i, j, hij, h⟩ := hfin.exists_lt_map_eq_of_forall_mem
    (f := fun i : Nat => (rhoMap n a)^[i + 1] x) (fun i => by
      rw [Function.iterate_succ_apply']
      have := rhoMap_range n a ((rhoMap n a)^[i] x) hn
      exact ⟨this.1, this.2.le⟩)
  refine ⟨i + 1, j - i, by omega, fun m hm => ?_⟩
  obtain ⟨e, rfl⟩ : ∃ e, m = e + (i + 1) := ⟨m - (i + 1), by omega⟩
  rw [show e + (i + 1) + (j - i) = e + (j + 1) by omega, Function.iterate_add_apply,
    Function.iterate_add_apply _ e (i + 1)]
  exact congrArg _ h.symm

theorem rhoMap_periodic_mul (n a x : Int) (hn : 0 < n) :
    ∃ μ p, 1 ≤ p ∧ ∀ m t, μ ≤ m → (rhoMap n a)^[m + p * t] x = (rhoMap n a)^[m] x := by
  obtain ⟨μ, p, hp, h⟩ := rhoMap_periodic n a x hn
  refine ⟨μ, p, hp, fun m t hm => ?_⟩
  induction t with
  | zero => rfl
  | succ t ih =>
    rw [show m + p * (t + 1) = m + p * t + p by ring, h _ (by omega), ih]

theorem gcd_zero_gt (n : Int) (hn : 1 < n) : 1 < Core.gcd 0 n := by
  rw [gcd_eq, Int.gcd_zero_left]; omega

theorem zero_fmod' (n : Int) : Int.fmod 0 n = 0 := Int.zero_fmod n

theorem rhoLoopInf_zero (n a : Int) (hn : 1 < n) (t : Nat) : ∀ u v k, (100 - k % 100) % 100 = t →
    (rhoLoopInf n a u v 0 k).isSome := by
  induction t with
  | zero =>
    intro u v k hk
    rw [rhoLoopInf]
    simp only [zero_mul, zero_fmod']
    rw [if_pos (by omega), if_pos (gcd_zero_gt n hn)]
    rfl
  | succ t ih =>
    intro u v k hk
    rw [rhoLoopInf]
    simp only [zero_mul, zero_fmod']
    rw [if_neg (by omega)]
    exact ih _ _ _ (by omega)

theorem rhoLoopInf_hit (n a : Int) (hn : 1 < n) (j : Nat) : ∀ u v prod k,
    (rhoMap n a)^[j + 1] u = (rhoMap n a)^[2 * (j + 1)] v → (rhoLoopInf n a u v prod k).isSome := by
  induction j with
  | zero =>
    intro u v prod k h
    have h' : (u * u + a).fmod n =
      ((v * v + a).fmod n * (v * v + a).fmod n + a).fmod n := h
    rw [rhoLoopInf]
    simp only [h', sub_self, mul_zero, zero_fmod']
    split
    · rw [if_pos (gcd_zero_gt n hn)]; rfl
    · exact rhoLoopInf_zero n a hn _ _ _ _ rfl
  | succ j ih =>
    intro u v prod k h
    rw [rhoLoopInf]
    have h' : (rhoMap n a)^[j + 1] (rhoMap n a u) = (rhoMap n a)^[2 * (j + 1)] (rhoMap n a (rhoMap n a v)) := by
      rw [← Function.iterate_succ_apply, ← Function.iterate_succ_apply, ← Function.iterate_succ_apply]
      exact h
    dsimp only
    split
    · split
      · rfl
      · exact ih _ _ _ _ h'
    · exact ih _ _ _ _ h'

/-- C137: `pollard_rho(n)` returns for every choice of the random numbers, and the result is a
divisor of `n` greater than 1. -/
theorem C137_pollard_rho (n : Nat) (hn : 2 ≤ n) (a u : Int) (iterations : Option Nat) :
    ∃ d : Nat, pollardRho n a u iterations = some (d : Int) ∧ d ∣ n ∧ 1 < d := by
  have hs : (pollardRho n a u iterations).isSome := by
    cases iterations with
    | some it => rfl
    | none =>
      obtain ⟨μ, p, hp, h⟩ := rhoMap_periodic_mul n a u (by omega)
      have hm : μ ≤ p * (μ + 1) := by nlinarith
      have hm1 : 1 ≤ p * (μ + 1) := Nat.mul_pos hp (by omega)
      refine rhoLoopInf_hit n a (by omega) (p * (μ + 1) - 1) u u 1 0 ?_
      rw [Nat.sub_add_cancel hm1, two_mul]
      exact (h _ _ hm).symm
  obtain ⟨r, hr⟩ := Option.isSome_iff_exists.1 hs
  obtain ⟨d, rfl, h1, h2⟩ := (C38_pollard_rho n hn a u iterations).1 r hr
  exact ⟨d, hr, h1, h2⟩

/-! ## Brent's variant -/

theorem brentAdvance_iter (n c : Int) (k : Nat) (y : Int) :
    brentAdvance n c k y = (rhoMap n c)^[k] y := by
  induction k generalizing y with
  | zero => rfl
  | succ k ih => rw [brentAdvance, ih]; rfl

theorem gcd_fmod_one (a n : Int) : Core.gcd (a.fmod n) n = Core.gcd a n := by
  rw [gcd_eq, gcd_eq]
  have : a.fmod n = a - n * a.fdiv n := Int.fmod_def a n
  rw [this, sub_eq_add_neg, ← mul_neg, Int.gcd_add_mul_left_left]

theorem gcd_mul_one {a b n : Int} (ha : Core.gcd a n = 1) (hb : Core.gcd b n = 1) :
    Core.gcd (a * b) n = 1 := by
  rw [gcd_eq] at *
  have h1 : IsCoprime a n := Int.isCoprime_iff_gcd_eq_one.2 (by exact_mod_cast ha)
  have h2 : IsCoprime b n := Int.isCoprime_iff_gcd_eq_one.2 (by exact_mod_cast hb)
  exact_mod_cast Int.isCoprime_iff_gcd_eq_one.1 (h1.mul_left h2)

theorem gcd_one_or_gt (a n : Int) (hn : 1 < n) : Core.gcd a n = 1 ∨ 1 < Core.gcd a n := by
  rw [gcd_eq]
  have : 0 < Int.gcd a n := Int.gcd_pos_of_ne_zero_right a (by omega)
  omega

theorem brentAccum_spec (n c x : Int) (hn : 1 < n) (k : Nat) : ∀ y prod,
    (brentAccum n c x k y prod).1 = (rhoMap n c)^[k] y ∧
    (Core.gcd prod n = 1 → (∀ i, 1 ≤ i → i ≤ k → Core.gcd (x - (rhoMap n c)^[i] y) n = 1) →
      Core.gcd (brentAccum n c x k y prod).2 n = 1) ∧
    (n ∣ prod → n ∣ (brentAccum n c x k y prod).2) ∧
    (∀ i, 1 ≤ i → i ≤ k → (rhoMap n c)^[i] y = x → n ∣ (brentAccum n c x k y prod).2) := by
  induction k with
  | zero =>
    intro y prod
    exact ⟨rfl, fun h _ => h, fun h => h, fun i h1 h2 => by omega⟩
  | succ k ih =>
    intro y prod
    simp only [brentAccum]
    obtain ⟨h1, h2, h3, h4⟩ := ih ((y * y + c).fmod n) ((prod * (x - (y * y + c).fmod n)).fmod n)
    refine ⟨by rw [h1]; rfl, fun hp hi => h2 ?_ fun i hi1 hi2 => hi (i + 1) (by omega) (by omega),
      fun hp => h3 ?_, fun i hi1 hi2 he => ?_⟩
    · rw [gcd_fmod_one]
      exact gcd_mul_one hp (hi 1 le_rfl (by omega))
    · rw [Int.fmod_def]
      exact dvd_sub (hp.mul_right _) (dvd_mul_right _ _)
    · rcases Nat.eq_or_lt_of_le hi1 with rfl | hlt
      · refine h3 ?_
        have he' : (y * y + c).fmod n = x := he
        rw [he', sub_self, mul_zero, zero_fmod']
        exact dvd_zero n
      · refine h4 (i - 1) (by omega) (by omega) ?_
        rw [← he]
        obtain ⟨i', rfl⟩ : ∃ i', i = i' + 1 := ⟨i - 1, by omega⟩
        rfl

theorem gcd_gt_of_dvd (a n : Int) (hn : 1 < n) (h : n ∣ a) : 1 < Core.gcd a n := by
  rw [gcd_eq]
  have : (Int.gcd a n : Int) = n := by
    rw [Int.gcd_comm, Int.gcd_eq_left_iff_dvd (by omega) |>.2 h]
  omega

theorem brentInner_spec (n c x : Int) (hn : 1 < n) (r k : Nat) (y prod : Int)
    (hp : Core.gcd prod n = 1) :
    (1 < (brentInner n c x r k y prod).2.2.2 ∧
      ∃ i, 1 < Core.gcd (x - (rhoMap n c)^[i + 1] (brentInner n c x r k y prod).1) n) ∨
    (Core.gcd (brentInner n c x r k y prod).2.2.1 n = 1 ∧
      (brentInner n c x r k y prod).2.2.2 = 1 ∧
      (brentInner n c x r k y prod).2.1 = (rhoMap n c)^[r - k] y ∧
      ∀ i, 1 ≤ i → i ≤ r - k → (rhoMap n c)^[i] y ≠ x) := by
  fun_induction brentInner n c x r k y prod with
  | case1 k y prod ys yp g h =>
    obtain ⟨h1, h2, h3, h4⟩ := brentAccum_spec n c x hn (min 100 (r - k)) y prod
    rcases gcd_one_or_gt yp.2 n hn with hg | hg
    · right
      have hkr : r ≤ k := by
        rcases h with h | h
        · exact h
        · exfalso; simp only [g] at h; omega
      have h0 : r - k = 0 := by omega
      refine ⟨hg, hg, ?_, fun i hi1 hi2 => by omega⟩
      simp only [yp, h1]
      rw [h0]
      rfl
    · left
      refine ⟨hg, ?_⟩
      by_contra hc
      push Not at hc
      have := h2 hp (fun i hi1 hi2 => by
        obtain ⟨i', rfl⟩ : ∃ i', i = i' + 1 := ⟨i - 1, by omega⟩
        rcases gcd_one_or_gt (x - (rhoMap n c)^[i' + 1] y) n hn with h5 | h5
        · exact h5
        · exact absurd h5 (not_lt.2 (hc i')))
      simp only [yp] at hg
      omega
  | case2 k y prod yp g h ih =>
    rw [not_or] at h
    obtain ⟨h1, h2, h3, h4⟩ := brentAccum_spec n c x hn (min 100 (r - k)) y prod
    have hg : Core.gcd yp.2 n = 1 := by
      rcases gcd_one_or_gt yp.2 n hn with hg | hg
      · exact hg
      · exact absurd hg h.2
    rcases ih hg with h5 | ⟨h5, h6, h7, h8⟩
    · left; exact h5
    · right
      refine ⟨h5, h6, ?_, fun i hi1 hi2 he => ?_⟩
      · rw [h7]
        simp only [yp, h1]
        rw [← Function.iterate_add_apply]
        congr 1
        omega
      · by_cases hi : i ≤ min 100 (r - k)
        · have := gcd_gt_of_dvd _ n hn (h4 i hi1 hi he)
          simp only [yp] at hg
          omega
        · refine h8 (i - min 100 (r - k)) (by omega) (by omega) ?_
          simp only [yp, h1]
          rw [← Function.iterate_add_apply, show i - min 100 (r - k) + min 100 (r - k) = i by omega]
          exact he

theorem brentOuter_some (n c : Int) (hn : 1 < n) (y0 : Int) (μ p : Nat) (hp : 1 ≤ p)
    (hper : ∀ m t, μ ≤ m → (rhoMap n c)^[m + p * t] y0 = (rhoMap n c)^[m] y0) (fuel : Nat) :
    ∀ r s prod, 1 ≤ r → r ≤ s + 1 → μ + 1 + p ≤ r * 2 ^ fuel → Core.gcd prod n = 1 →
      ∃ x ys g, brentOuter n c r ((rhoMap n c)^[s] y0) prod = some (x, ys, g) ∧
        ∃ i, 1 < Core.gcd (x - (rhoMap n c)^[i + 1] ys) n := by
  induction fuel with
  | zero =>
    intro r s prod hr hs hM hprod
    rw [brentOuter]
    simp only [brentAdvance_iter]
    rcases brentInner_spec n c ((rhoMap n c)^[s] y0) hn r 0
      ((rhoMap n c)^[r] ((rhoMap n c)^[s] y0)) prod hprod with ⟨h1, h2⟩ | ⟨h1, h2, h3, h4⟩
    · rw [if_pos h1]; exact ⟨_, _, _, rfl, h2⟩
    · exfalso
      rw [pow_zero, mul_one] at hM
      -- a multiple of the period between r + 1 and 2 r
      have hlt := Nat.mod_lt r (show 0 < p by omega)
      have hdm := Nat.div_add_mod r p
      refine h4 (p - r % p) (by omega) (by omega) ?_
      rw [← Function.iterate_add_apply, ← Function.iterate_add_apply,
        show p - r % p + r + s = s + p * (r / p + 1) by rw [mul_add]; omega]
      exact hper s _ (by omega)
  | succ fuel ih =>
    intro r s prod hr hs hM hprod
    rw [brentOuter]
    simp only [brentAdvance_iter]
    rcases brentInner_spec n c ((rhoMap n c)^[s] y0) hn r 0
      ((rhoMap n c)^[r] ((rhoMap n c)^[s] y0)) prod hprod with ⟨h1, h2⟩ | ⟨h1, h2, h3, h4⟩
    · rw [if_pos h1]; exact ⟨_, _, _, rfl, h2⟩
    · rw [if_neg (by rw [h2]; omega), h3, Nat.sub_zero, ← Function.iterate_add_apply,
        ← Function.iterate_add_apply]
      exact ih (2 * r) (r + r + s) _ (by omega) (by omega)
        (by rw [pow_succ] at hM; linarith [show 2 * r * 2 ^ fuel = r * (2 ^ fuel * 2) by ring]) h1

theorem brentBacktrack_some (n c x : Int) (i : Nat) : ∀ ys,
    1 < Core.gcd (x - (rhoMap n c)^[i + 1] ys) n → (brentBacktrack n c x ys).isSome := by
  induction i with
  | zero =>
    intro ys h
    have h' : 1 < Core.gcd (x - (ys * ys + c).fmod n) n := h
    rw [brentBacktrack]
    rw [if_pos h']
    rfl
  | succ i ih =>
    intro ys h
    rw [brentBacktrack]
    split
    · rfl
    · exact ih _ h

/-- C137: `pollard_rho_brent(n)` returns for every choice of the random numbers, and the result is a
divisor of `n` greater than 1. -/
theorem C137_pollard_rho_brent (n : Nat) (hn : 2 ≤ n) (c y : Int) :
    ∃ d : Nat, pollardRhoBrent n c y = some (d : Int) ∧ d ∣ n ∧ 1 < d := by
  have hn' : (1 : Int) < n := by omega
  have hs : (pollardRhoBrent n c y).isSome := by
    obtain ⟨μ, p, hp, h⟩ := rhoMap_periodic_mul n c y (by omega)
    obtain ⟨x, ys, g, h1, i, h2⟩ := brentOuter_some n c hn' y μ p hp h (μ + 1 + p) 1 0 1 le_rfl le_rfl
      (by rw [one_mul]; exact Nat.lt_two_pow_self.le)
      (by rw [gcd_eq, Int.gcd_one_left]; rfl)
    unfold pollardRhoBrent
    rw [show brentOuter n c 1 y 1 = some (x, ys, g) from h1]
    simp only [Option.bind_eq_bind, Option.bind_some]
    split
    · exact brentBacktrack_some n c x i ys h2
    · rfl
  obtain ⟨r, hr⟩ := Option.isSome_iff_exists.1 hs
  obtain ⟨d, rfl, h1, h2⟩ := C38_pollard_rho_brent n c y r hr
  exact ⟨d, hr, h1, h2⟩

/-- A run that finds a factor, and one whose random choices make the result trivial. -/
example : pollardRho 91 1 2 none = some 7 ∧ pollardRho 9 3 3 none = some 9 := by
  constructor
  · rw [pollardRho, rhoLoopInf]
    dsimp only
    rw [if_pos (by decide), if_pos (by decide +kernel)]
    decide +kernel
  · rw [pollardRho, rhoLoopInf]
    dsimp only
    rw [if_pos (by decide), if_pos (by decide +kernel)]
    decide +kernel

end Rosemary.Props
