import Verif.Model.Pollard
import Verif.Props.Rho
import Verif.Props.Sieves
import Mathlib.FieldTheory.Finite.Basic

/-!
# Property C138 (and the end-to-end form of C137): the entry points of Pollard's methods
-/

namespace Rosemary.Props

open Rosemary Rosemary.Core Rosemary.Primality Rosemary.Factorization Rosemary.Sieves Rosemary.Spec

/-! ## C137 with the calls of `randint` -/

/-- C137: for `n ≥ 4` the calls `pollard_rho(n, iterations)` and `pollard_rho_brent(n)` return a divisor
of `n` greater than 1, whatever numbers are drawn. -/
theorem C137_pollard_calls (n : Nat) (hn : 4 ≤ n) (a u : Int) (iterations : Option Nat) :
    (∃ d : Nat, pollardRhoCall n iterations a u = .ok (some (d : Int)) ∧ d ∣ n ∧ 1 < d) ∧
    (∃ d : Nat, pollardRhoBrentCall n a u = .ok (some (d : Int)) ∧ d ∣ n ∧ 1 < d) := by
  have h1 : randintOf 1 ((n : Int) - 3) a = .ok a := by unfold randintOf; rw [if_neg (by omega)]
  have h2 : randintOf 0 ((n : Int) - 1) u = .ok u := by unfold randintOf; rw [if_neg (by omega)]
  constructor
  · obtain ⟨d, hd, h⟩ := C137_pollard_rho n (by omega) a u iterations
    refine ⟨d, ?_, h⟩
    unfold pollardRhoCall
    rw [h1]
    dsimp only
    rw [h2]
    dsimp only
    rw [hd]
  · obtain ⟨d, hd, h⟩ := C137_pollard_rho_brent n (by omega) a u
    refine ⟨d, ?_, h⟩
    unfold pollardRhoBrentCall
    rw [h1]
    dsimp only
    rw [h2]
    dsimp only
    rw [hd]

/-- C137: for `n ≤ 3` (the docstrings promise `n > 1`) both calls raise ValueError. -/
theorem C137_pollard_error (n : Int) (hn : n ≤ 3) (a u : Int) (iterations : Option Nat) :
    pollardRhoCall n iterations a u = .error .valueError ∧
    pollardRhoBrentCall n a u = .error .valueError := by
  have h1 : randintOf 1 (n - 3) a = .error .valueError := by
    unfold randintOf; rw [if_pos (by omega)]
  constructor
  · unfold pollardRhoCall; rw [h1]
  · unfold pollardRhoBrentCall; rw [h1]

/-! ## C138 pollard_p_minus_1 -/

theorem powersUpTo_prod (p limit : Nat) (hp : 2 ≤ p) (e : Nat) : ∀ pk, 0 < pk → pk * p ^ e ≤ limit →
    p ^ (e + 1) ∣ ((powersUpTo p limit pk).map Prod.snd).prod := by
  induction e with
  | zero =>
    intro pk h0 h
    rw [powersUpTo, dif_pos ⟨hp, h0, by simpa using h⟩]
    simp
  | succ e ih =>
    intro pk h0 h
    have h' : pk * p * p ^ e ≤ limit := by rw [mul_assoc, ← pow_succ']; exact h
    have h1 : pk ≤ limit := by
      have : 1 ≤ p ^ (e + 1) := Nat.one_le_pow _ _ (by omega)
      nlinarith
    rw [powersUpTo, dif_pos ⟨hp, h0, h1⟩, List.map_cons, List.prod_cons, pow_succ']
    exact Nat.mul_dvd_mul dvd_rfl (ih (pk * p) (Nat.mul_pos h0 (by omega)) h')

theorem pMinusOneLoop_hit (n p : Nat) (hp : p.Prime) (hpn : p ∣ n) (hn : 1 ≤ n) (l : List (Nat × Nat)) :
    ∀ (c : Int) (count : Nat), (p : Int) ∣ c ^ (l.map Prod.snd).prod - 1 →
      1 < pMinusOneLoop n c count l := by
  induction l with
  | nil =>
    intro c count h
    simp only [List.map_nil, List.prod_nil, pow_one] at h
    simp only [pMinusOneLoop]
    rw [gcd_eq]
    have h1 : (p : Int) ∣ Int.gcd (c - 1) n := Int.dvd_coe_gcd h (by exact_mod_cast hpn)
    have h2 : p ∣ Int.gcd (c - 1) n := by exact_mod_cast h1
    have h3 : 0 < Int.gcd (c - 1) n := Int.gcd_pos_of_ne_zero_right _ (by omega)
    have := Nat.le_of_dvd h3 h2
    have := hp.two_le
    omega
  | cons a l ih =>
    obtain ⟨pk, q⟩ := a
    intro c count h
    simp only [pMinusOneLoop]
    have h' : (p : Int) ∣ ((c ^ q).fmod n) ^ (l.map Prod.snd).prod - 1 := by
      rw [List.map_cons, List.prod_cons, pow_mul] at h
      have h1 : (c ^ q).fmod n ≡ c ^ q [ZMOD p] :=
        (fmod_modEq (c ^ q) n).of_dvd (by exact_mod_cast hpn)
      have h2 := h1.pow (l.map Prod.snd).prod
      have h3 := h2.dvd
      have h4 := dvd_sub h h3
      rwa [show (c ^ q) ^ (l.map Prod.snd).prod - 1 -
        ((c ^ q) ^ (l.map Prod.snd).prod - ((c ^ q).fmod n) ^ (l.map Prod.snd).prod) =
        ((c ^ q).fmod n) ^ (l.map Prod.snd).prod - 1 by ring] at h4
    split
    · split
      · rename_i h1; exact h1.1
      · exact ih _ _ h'
    · exact ih _ _ h'

/-- C138: if some prime factor `p ≠ 13` of `n` is such that every prime power dividing `p - 1` is at
most `limit`, then `pollard_p_minus_1(n, limit)` is a divisor of `n` greater than 1. -/
theorem C138_pollard_p_minus_1 (T : List Nat) (hT : IsPrimeTable T) (n limit p : Nat) (hn : 1 ≤ n)
    (hp : p.Prime) (hpn : p ∣ n) (h13 : p ≠ 13)
    (hsm : ∀ q e, q.Prime → q ^ e ∣ p - 1 → q ^ e ≤ limit) :
    ∃ d : Nat, pollardPMinusOneCall T n limit = .ok (d : Int) ∧ d ∣ n ∧ 1 < d := by
  unfold pollardPMinusOneCall
  rw [C18_primes T hT]
  dsimp only
  rw [Int.toNat_natCast]
  generalize hL : (primesUpTo limit).flatMap (fun p => powersUpTo p limit p) = L
  generalize hP : pySort L _ = P
  have hperm : P.Perm L := by rw [← hP]; exact pySort_perm _ _
  obtain ⟨d, hd, hdn⟩ := C38_pollard_p_minus_1 P n
  refine ⟨d, by rw [hd], hdn, ?_⟩
  have h1 : 1 < pollardPMinusOne P n := by
    refine pMinusOneLoop_hit n p hp hpn hn P 13 0 ?_
    rw [(hperm.map Prod.snd).prod_eq]
    have hdvd : p - 1 ∣ (L.map Prod.snd).prod := by
      rw [Nat.dvd_iff_prime_pow_dvd_dvd]
      intro q e hq hqe
      rcases Nat.eq_zero_or_pos e with rfl | he
      · simp
      have hle := hsm q e hq hqe
      obtain ⟨e', rfl⟩ : ∃ e', e = e' + 1 := ⟨e - 1, by omega⟩
      have h2 := powersUpTo_prod q limit hq.two_le e' q hq.pos (by rwa [← pow_succ'])
      refine h2.trans ?_
      have hqm : q ∈ primesUpTo limit := by
        rw [mem_primesUpTo]
        refine ⟨hq, le_trans ?_ hle⟩
        exact Nat.le_self_pow (by omega) q
      obtain ⟨l1, l2, hl⟩ := List.append_of_mem hqm
      rw [← hL, hl, List.flatMap_append, List.flatMap_cons, List.map_append, List.map_append,
        List.prod_append, List.prod_append]
      exact dvd_mul_of_dvd_right (dvd_mul_right _ _) _
    obtain ⟨t, ht⟩ := hdvd
    rw [ht, pow_mul]
    have hco : IsCoprime (13 : Int) p := by
      have : Nat.Coprime 13 p := (Nat.coprime_primes (by norm_num) hp).2 (Ne.symm h13)
      exact_mod_cast Nat.isCoprime_iff_coprime.2 this
    have hf := (Int.ModEq.pow_card_sub_one_eq_one hp hco).pow t
    rw [one_pow] at hf
    exact (Int.modEq_iff_dvd.1 hf.symm)
  rw [hd] at h1
  exact_mod_cast h1

/-- For `n = 7 * 23` and `limit = 4`: 6 = 7 - 1 is smooth, 22 = 23 - 1 is not. -/
example : pollardPMinusOneCall [2, 3, 5, 7, 11, 13] 161 4 = .ok 7 := by decide +kernel

/-- The exclusion of 13 is needed: 13 - 1 = 12 divides lcm(1, ..., 4), but 13 is the base. -/
example : pollardPMinusOneCall [2, 3, 5, 7, 11, 13] 299 4 = .ok 1 := by decide +kernel

end Rosemary.Props
