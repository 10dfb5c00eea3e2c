import Verif.Model.Primality
import Verif.Lemmas.Core
import Verif.Spec.NumberTheory
import Verif.Props.Core
import Mathlib.Data.Nat.Factorization.Root
import Mathlib.FieldTheory.Finite.Basic
import Mathlib.NumberTheory.LegendreSymbol.JacobiSymbol
import Mathlib.NumberTheory.LucasLehmer
import Mathlib.Data.Nat.Prime.Infinite
import Mathlib.Tactic.IntervalCases

/-! Helper lemmas for `Verif.Props.Primality`. -/

namespace Rosemary.Primality

open Rosemary.Core

/-! ### Miller–Rabin -/

theorem strip2_spec (t s : Nat) (ht : t ≠ 0) :
    ∃ k, (strip2 t s).2 = s + k ∧ t = (strip2 t s).1 * 2 ^ k ∧ (strip2 t s).1 % 2 = 1 := by
  fun_induction strip2 t s with
  | case1 t s h ih =>
    obtain ⟨k, h1, h2, h3⟩ := ih (by omega)
    refine ⟨k + 1, by omega, ?_, h3⟩
    rw [pow_succ, ← mul_assoc, ← h2]; omega
  | case2 t s h => exact ⟨0, by simp; omega⟩

theorem mrLoop_iff (n b k : Nat) :
    mrLoop n b k = true ↔ ∃ i, 1 ≤ i ∧ i ≤ k ∧ b ^ 2 ^ i % n = n - 1 := by
  induction k generalizing b with
  | zero =>
    simp only [mrLoop, Bool.false_eq_true, false_iff]
    rintro ⟨i, h1, h2, _⟩; omega
  | succ k ih =>
    have e : ∀ i, (b * b % n) ^ 2 ^ i % n = b ^ 2 ^ (i + 1) % n := by
      intro i
      rw [← Nat.pow_mod, ← pow_two, ← pow_mul, pow_succ, mul_comm]
    simp only [mrLoop]
    split
    · rename_i h
      simp only [true_iff]
      exact ⟨1, le_refl _, by omega, by simpa [pow_two] using h⟩
    · rename_i h
      rw [ih]
      constructor
      · rintro ⟨i, h1, h2, h3⟩
        exact ⟨i + 1, by omega, by omega, by rw [← e]; exact h3⟩
      · rintro ⟨i, h1, h2, h3⟩
        rcases i with _ | _ | i
        · omega
        · exact absurd (by simpa [pow_two] using h3) h
        · exact ⟨i + 1, by omega, by omega, by rw [e]; exact h3⟩

/-- The test in terms of the decomposition `n - 1 = t * 2 ^ s`. -/
theorem millerRabin_iff (n a t s : Nat) (hn : 2 ≤ n) (hts : n - 1 = t * 2 ^ s)
    (ht : t % 2 = 1) :
    millerRabin n a = true ↔
      a ^ t % n = 1 ∨ a ^ t % n = n - 1 ∨ ∃ i, 1 ≤ i ∧ i < s ∧ a ^ (t * 2 ^ i) % n = n - 1 := by
  obtain ⟨k, h1, h2, h3⟩ := strip2_spec (n - 1) 0 (by omega)
  have huniq : (strip2 (n - 1) 0).1 = t ∧ k = s := by
    have hk : k = s := by
      have e : (strip2 (n - 1) 0).1 * 2 ^ k = t * 2 ^ s := by rw [← h2, hts]
      have c : ∀ x y i j : Nat, x % 2 = 1 → x * 2 ^ i = y * 2 ^ j → j ≤ i := by
        intro x y i j hx h
        by_contra hlt
        obtain ⟨m, rfl⟩ := Nat.exists_eq_add_of_lt (not_le.1 hlt)
        have : x = y * 2 ^ (m + 1) := by
          apply Nat.eq_of_mul_eq_mul_right (show 0 < 2 ^ i by positivity)
          rw [h, add_assoc, pow_add]; ring
        rw [pow_succ, ← mul_assoc] at this; omega
      exact le_antisymm (c _ _ _ _ ht e.symm) (c _ _ _ _ h3 e)
    subst hk
    exact ⟨Nat.eq_of_mul_eq_mul_right (by positivity) (h2.symm.trans hts), rfl⟩
  obtain ⟨e1, e2⟩ := huniq
  have es : (strip2 (n - 1) 0).2 = s := by omega
  simp only [millerRabin, e1, es]
  split
  · rename_i h; simp only [true_iff]; tauto
  · rename_i h
    rw [mrLoop_iff]
    have e : ∀ i, (a ^ t % n) ^ 2 ^ i % n = a ^ (t * 2 ^ i) % n := by
      intro i; rw [← Nat.pow_mod, ← pow_mul]
    simp only [e]
    constructor
    · rintro ⟨i, h1, h2, h3⟩; exact Or.inr (Or.inr ⟨i, h1, by omega, h3⟩)
    · rintro (h' | h' | ⟨i, h1, h2, h3⟩)
      · tauto
      · tauto
      · exact ⟨i, h1, by omega, h3⟩

theorem millerRabin_prime (n a : Nat) (hn : n.Prime) (ha : ¬ n ∣ a) : millerRabin n a = true := by
  haveI := Fact.mk hn
  obtain ⟨s, h1, h2, h3⟩ := strip2_spec (n - 1) 0 (by have := hn.two_le; omega)
  rw [millerRabin_iff n a _ s hn.two_le h2 h3]
  generalize (strip2 (n - 1) 0).1 = t at *
  have hz : (a : ZMod n) ≠ 0 := by rwa [Ne, ZMod.natCast_eq_zero_iff]
  have cast1 : ∀ m : Nat, (a : ZMod n) ^ m = 1 → a ^ m % n = 1 := by
    intro m h
    have : ((a ^ m : Nat) : ZMod n) = ((1 : Nat) : ZMod n) := by push_cast; simpa using h
    rw [ZMod.natCast_eq_natCast_iff] at this
    have h' : a ^ m % n = 1 % n := this
    rwa [Nat.mod_eq_of_lt hn.one_lt] at h'
  have castm : ∀ m : Nat, (a : ZMod n) ^ m = -1 → a ^ m % n = n - 1 := by
    intro m h
    have : ((a ^ m : Nat) : ZMod n) = ((n - 1 : Nat) : ZMod n) := by
      rw [Nat.cast_sub hn.one_le]; push_cast; simpa using h
    rw [ZMod.natCast_eq_natCast_iff] at this
    have h' : a ^ m % n = (n - 1) % n := this
    rwa [Nat.mod_eq_of_lt (show n - 1 < n by have := hn.two_le; omega)] at h'
  have key : ∀ j, j ≤ s → (a : ZMod n) ^ (t * 2 ^ j) = 1 →
      (a : ZMod n) ^ t = 1 ∨ ∃ i, i < j ∧ (a : ZMod n) ^ (t * 2 ^ i) = -1 := by
    intro j
    induction j with
    | zero => intro _ h; left; simpa using h
    | succ j ih =>
      intro hj h
      have : (a : ZMod n) ^ (t * 2 ^ j) * (a : ZMod n) ^ (t * 2 ^ j) = 1 := by
        rw [← pow_add, ← h]; congr 1; ring
      rcases mul_self_eq_one_iff.1 this with h' | h'
      · rcases ih (by omega) h' with h'' | ⟨i, hi, h''⟩
        · exact Or.inl h''
        · exact Or.inr ⟨i, by omega, h''⟩
      · exact Or.inr ⟨j, by omega, h'⟩
  rcases key s le_rfl (by rw [← h2]; exact ZMod.pow_card_sub_one_eq_one hz) with h | ⟨i, hi, h⟩
  · exact Or.inl (cast1 _ h)
  · rcases i with _ | i
    · exact Or.inr (Or.inl (castm _ (by simpa using h)))
    · exact Or.inr (Or.inr ⟨i + 1, by omega, hi, castm _ h⟩)

theorem isProbablePrime_prime (n : Nat) (hn : n.Prime) : isProbablePrime n = true := by
  simp only [isProbablePrime, List.all_eq_true, List.mem_range'_1]
  intro a ha
  refine millerRabin_prime n a hn fun hd => ?_
  have := Nat.le_of_dvd (by omega) hd
  omega

/-! ### trial division -/

theorem wheelOffset_spec {r o : Nat} (h : wheelOffset r = some o) :
    (r = 1 ∧ o = 6) ∨ (r = 7 ∧ o = 4) ∨ (r = 11 ∧ o = 2) ∨ (r = 13 ∧ o = 4) ∨
    (r = 17 ∧ o = 2) ∨ (r = 19 ∧ o = 4) ∨ (r = 23 ∧ o = 6) ∨ (r = 29 ∧ o = 2) := by
  unfold wheelOffset at h
  repeat' split at h
  all_goals first | (simp only [Option.some.injEq] at h; omega) | simp at h

theorem wheelOffset_none {r : Nat} (h : wheelOffset r = none) :
    r ≠ 1 ∧ r ≠ 7 ∧ r ≠ 11 ∧ r ≠ 13 ∧ r ≠ 17 ∧ r ≠ 19 ∧ r ≠ 23 ∧ r ≠ 29 := by
  unfold wheelOffset at h
  repeat' split at h
  all_goals first | (refine ⟨?_, ?_, ?_, ?_, ?_, ?_, ?_, ?_⟩ <;> assumption) | simp at h

/-- Residues coprime to 30. -/
def Cop30 (d : Nat) : Prop := d % 30 = 1 ∨ d % 30 = 7 ∨ d % 30 = 11 ∨ d % 30 = 13 ∨
  d % 30 = 17 ∨ d % 30 = 19 ∨ d % 30 = 23 ∨ d % 30 = 29

theorem prime_cop30 {p : Nat} (hp : p.Prime) (h7 : 7 ≤ p) : Cop30 p := by
  have key : ∀ q, 2 ≤ q → q < 7 → p % q ≠ 0 := by
    intro q h2 h7' h
    rcases (Nat.dvd_prime hp).1 (Nat.dvd_of_mod_eq_zero h) with h | h <;> omega
  have k2 := key 2 (by omega) (by omega)
  have k3 := key 3 (by omega) (by omega)
  have k5 := key 5 (by omega) (by omega)
  have hlt : p % 30 < 30 := Nat.mod_lt _ (by omega)
  unfold Cop30
  generalize hr : p % 30 = r at *
  interval_cases r <;> first | omega | decide

theorem trialRes (n B d : Nat) (hn : 2 ≤ n) (hB : d ≤ B) (hd : n % d = 0) (h2 : 2 ≤ d)
    (h : ∀ q, q.Prime → q < d → ¬ q ∣ n) :
    d = if n.minFac ≤ B then n.minFac else n := by
  have hdd := Nat.dvd_of_mod_eq_zero hd
  have h1 := Nat.minFac_le_of_dvd h2 hdd
  have h3 : ¬ n.minFac < d := fun hlt =>
    h _ (Nat.minFac_prime (by omega)) hlt (Nat.minFac_dvd n)
  rw [if_pos (by omega)]; omega

theorem wheelLoop_spec (n B d : Nat) (hn : 2 ≤ n) (hd : Cop30 d) (h7 : 7 ≤ d)
    (h : ∀ q, q.Prime → q < d → ¬ q ∣ n) :
    wheelLoop n B d = .ok (if n.minFac ≤ B then n.minFac else n) := by
  fun_induction wheelLoop n B d with
  | case1 d hle hmod => rw [← trialRes n B d hn hle hmod (by omega) h]
  | case2 d hle hmod hw =>
    have := wheelOffset_none hw
    unfold Cop30 at hd; omega
  | case3 d hle hmod o hw ih =>
    have hs := wheelOffset_spec hw
    refine ih ?_ (by omega) ?_
    · unfold Cop30 at *; omega
    · intro q hq hlt hqn
      by_cases hqd : q < d
      · exact h q hq hqd hqn
      · by_cases e : q = d
        · subst e; exact hmod (Nat.mod_eq_zero_of_dvd hqn)
        · have := prime_cop30 hq (by omega)
          unfold Cop30 at *; omega
  | case4 d hle =>
    rw [if_neg]
    intro hm
    exact h _ (Nat.minFac_prime (by omega)) (by omega) (Nat.minFac_dvd n)

theorem trialTable_spec (n B : Nat) (hn : 2 ≤ n) (T : List Nat) (d l : Nat)
    (hs : (d :: T).Pairwise (· < ·)) (hl : (d :: T).getLast? = some l) (h7 : 7 ≤ l)
    (hlp : l.Prime)
    (hT : ∀ p, p ∈ T ↔ p.Prime ∧ p ≤ l ∧ d < p)
    (h : ∀ q, q.Prime → q ≤ d → ¬ q ∣ n) :
    trialTable n B d T = .ok (if n.minFac ≤ B then n.minFac else n) := by
  induction T generalizing d with
  | nil =>
    simp only [List.getLast?_singleton, Option.some.injEq] at hl
    subst hl
    have hc := prime_cop30 hlp h7
    simp only [trialTable]
    split
    · rename_i hw
      have := wheelOffset_none hw
      unfold Cop30 at hc; omega
    · rename_i o hw
      have hs := wheelOffset_spec hw
      refine wheelLoop_spec n B _ hn ?_ (by omega) ?_
      · unfold Cop30 at *; omega
      · intro q hq hlt hqn
        by_cases hqd : q ≤ d
        · exact h q hq hqd hqn
        · have := prime_cop30 hq (by omega)
          unfold Cop30 at *; omega
  | cons p rest ih =>
    have hp := (hT p).1 List.mem_cons_self
    have hbelow : ∀ q, q.Prime → q < p → ¬ q ∣ n := by
      intro q hq hlt
      apply h q hq
      by_contra hc
      have hm : q ∈ p :: rest := (hT q).2 ⟨hq, by omega, by omega⟩
      rcases List.mem_cons.1 hm with e | hm
      · omega
      · have := List.rel_of_pairwise_cons (List.pairwise_cons.1 hs).2 hm
        omega
    simp only [trialTable]
    split
    · rw [if_neg]
      intro hm
      exact hbelow _ (Nat.minFac_prime (by omega)) (by omega) (Nat.minFac_dvd n)
    · split
      · rename_i hB hmod
        rw [← trialRes n B p hn (by omega) hmod hp.1.two_le hbelow]
      · rename_i hB hmod
        refine ih p (List.pairwise_cons.1 hs).2 (by simpa using hl) ?_ ?_
        · intro q
          constructor
          · intro hq
            have h1 := (hT q).1 (List.mem_cons_of_mem _ hq)
            exact ⟨h1.1, h1.2.1, List.rel_of_pairwise_cons (List.pairwise_cons.1 hs).2 hq⟩
          · rintro ⟨h1, h2, h3⟩
            have hm : q ∈ p :: rest := (hT q).2 ⟨h1, h2, by omega⟩
            rcases List.mem_cons.1 hm with e | hm
            · omega
            · exact hm
        · intro q hq hle
          rcases Nat.lt_or_eq_of_le hle with h1 | rfl
          · exact hbelow q hq h1
          · exact fun hd => hmod (Nat.mod_eq_zero_of_dvd hd)

theorem IsPrimeTable.ne_nil {T : List Nat} (h : IsPrimeTable T) : T ≠ [] := by
  obtain ⟨l, h1, _⟩ := h.last
  rintro rfl; simp at h1

theorem trialDivisionBound_spec (T : List Nat) (hT : IsPrimeTable T) (n B : Nat) (hn : 2 ≤ n) :
    trialDivisionBound T n B = .ok (if n.minFac ≤ B then n.minFac else n) := by
  obtain ⟨l, h1, h2, h3⟩ := hT.last
  have hmem : l ∈ T := List.mem_of_getLast? h1
  refine trialTable_spec n B hn T 0 l ?_ ?_ h2 ((h3 l).1 hmem).1 ?_ ?_
  · refine List.pairwise_cons.2 ⟨?_, hT.sorted⟩
    intro a ha; exact ((h3 a).1 ha).1.pos
  · rw [List.getLast?_cons, h1]; rfl
  · intro p; rw [h3]
    exact ⟨fun h => ⟨h.1, h.2, h.1.pos⟩, fun h => ⟨h.1, h.2.1⟩⟩
  · intro q hq hle; have := hq.pos; omega

/-! ### is_prime -/

theorem bisect_spec (T : List Nat) (hs : T.Pairwise (· < ·)) (n : Nat)
    (hge : ∃ m ∈ T, n ≤ m) :
    ∃ q, T[bisectLeft T n]? = some q ∧ (q = n ↔ n ∈ T) := by
  induction T with
  | nil => simp at hge
  | cons a T ih =>
    rw [List.pairwise_cons] at hs
    by_cases h : a < n
    · obtain ⟨m, hm, hnm⟩ := hge
      have hm' : m ∈ T := by
        rcases List.mem_cons.1 hm with e | e
        · omega
        · exact e
      obtain ⟨q, h1, h2⟩ := ih hs.2 ⟨m, hm', hnm⟩
      refine ⟨q, ?_, ?_⟩
      · simpa [bisectLeft, h] using h1
      · rw [h2]; simp; omega
    · refine ⟨a, by simp [bisectLeft, h], ?_⟩
      constructor
      · rintro rfl; simp
      · intro hm
        rcases List.mem_cons.1 hm with e | e
        · exact e.symm
        · have := hs.1 n e; omega

theorem trialDivision_spec (T : List Nat) (hT : IsPrimeTable T) (n : Nat) (hn : 2 ≤ n) :
    ∃ B, n.sqrt + 1 ≤ B ∧ trialDivision T n = .ok (if n.minFac ≤ B then n.minFac else n) := by
  obtain ⟨s, h1, h2, _⟩ := integerSqrt_nat n
  refine ⟨s + 1, by omega, ?_⟩
  · simp only [trialDivision, h1, trialDivisionBound_spec T hT n _ hn]

theorem isPrime_spec (T : List Nat) (hT : IsPrimeTable T) (n : Int) :
    isPrime T n = .ok (decide (0 ≤ n ∧ n.toNat.Prime)) := by
  obtain ⟨l, h1, h2, h3⟩ := hT.last
  unfold isPrime
  split
  · rename_i h
    congr 1; symm; rw [decide_eq_false_iff_not]
    rintro ⟨h0, hp⟩
    have := hp.two_le; omega
  · rename_i hn
    obtain ⟨N, rfl⟩ := Int.eq_ofNat_of_zero_le (by omega : 0 ≤ n)
    simp only [h1, Int.toNat_natCast]
    split
    · rename_i hle
      have hl : l ∈ T := List.mem_of_getLast? h1
      obtain ⟨q, h4, h5⟩ := bisect_spec T hT.sorted N ⟨l, hl, hle⟩
      simp only [h4]
      congr 1
      rw [Bool.eq_iff_iff]
      simp only [beq_iff_eq, decide_eq_true_eq, h5, h3]
      exact ⟨fun h => ⟨by omega, h.1⟩, fun h => ⟨h.2, hle⟩⟩
    · split
      · rename_i hlt hpp
        congr 1; symm; rw [decide_eq_false_iff_not]
        rintro ⟨_, hp⟩
        rw [isProbablePrime_prime N hp] at hpp; simp at hpp
      · obtain ⟨B, hB, htd⟩ := trialDivision_spec T hT N (by omega)
        simp only [htd]
        congr 1
        rw [Bool.eq_iff_iff]
        simp only [beq_iff_eq, decide_eq_true_eq]
        constructor
        · intro h
          refine ⟨by omega, ?_⟩
          by_contra hp
          have hm := Nat.minFac_sq_le_self (by omega) hp
          have hs : N.minFac ≤ N.sqrt := Nat.le_sqrt'.2 hm
          rw [if_pos (by omega)] at h
          have := Nat.minFac_prime (n := N) (by omega)
          rw [h] at this; exact hp this
        · rintro ⟨_, hp⟩
          rw [hp.minFac_eq]; simp

theorem nextPrimeLoop_spec (T : List Nat) (hT : IsPrimeTable T) (n : Int) (hodd : n % 2 = 1)
    (p : Nat) (hp : p.Prime) (hp2 : p ≠ 2) (hnp : n ≤ p)
    (hmin : ∀ q : Nat, q.Prime → n ≤ q → q ≠ 2 → p ≤ q) :
    nextPrimeLoop T n = some (.ok p) := by
  obtain ⟨k, hk⟩ : ∃ k : Nat, (p : Int) - n = k := ⟨((p : Int) - n).toNat, by omega⟩
  induction k using Nat.strong_induction_on generalizing n with
  | _ k ih =>
    rw [nextPrimeLoop, isPrime_spec T hT]
    by_cases h : 0 ≤ n ∧ n.toNat.Prime
    · simp only [h, and_self, decide_true]
      have := hmin n.toNat h.2 (by omega) (by omega)
      congr 2; omega
    · simp only [h, decide_false]
      have hne : n ≠ p := by rintro rfl; exact h ⟨by omega, by simpa using hp⟩
      have hpo : p % 2 = 1 := (hp.eq_two_or_odd).resolve_left hp2
      refine ih (k - 2) (by omega) (n + 2) (by omega) (by omega) ?_ (by omega)
      intro q hq hle h2
      exact hmin q hq (by omega) h2

theorem nextProbablePrimeLoop_spec (n : Nat) (hodd : n % 2 = 1) (p : Nat) (hp : p.Prime)
    (hp2 : p ≠ 2) (hnp : n ≤ p) :
    ∃ r, nextProbablePrimeLoop n = some r ∧ n ≤ r ∧ r ≤ p ∧ r % 2 = 1 ∧
      isProbablePrime r = true := by
  obtain ⟨k, hk⟩ : ∃ k : Nat, p - n = k := ⟨_, rfl⟩
  induction k using Nat.strong_induction_on generalizing n with
  | _ k ih =>
    rw [nextProbablePrimeLoop]
    split
    · rename_i h; exact ⟨n, rfl, le_rfl, hnp, hodd, h⟩
    · rename_i h
      have hne : n ≠ p := by rintro rfl; exact h (isProbablePrime_prime n hp)
      have hpo : p % 2 = 1 := (hp.eq_two_or_odd).resolve_left hp2
      obtain ⟨r, h1, h2, h3, h4, h5⟩ := ih (k - 2) (by omega) (n + 2) (by omega) (by omega) (by omega)
      exact ⟨r, h1, by omega, h3, h4, h5⟩

/-! ### Lucas–Lehmer -/

theorem llLoop_eq (mp v : Int) (k : Nat) :
    llLoop mp v k = (fun v => (v * v - 2).fmod mp)^[k] v := by
  induction k generalizing v with
  | zero => rfl
  | succ k ih => rw [llLoop, ih]; rfl

theorem llLoop_sMod (p : Nat) (hp : 3 ≤ p) (k : Nat) :
    (fun v : Int => (v * v - 2).fmod (2 ^ p - 1))^[k] 4 = LucasLehmer.sMod p k := by
  have hpos : (7 : Int) ≤ 2 ^ p - 1 := by
    have : (2 : Int) ^ 3 ≤ 2 ^ p := pow_le_pow_right₀ (by norm_num) hp
    omega
  induction k with
  | zero =>
    simp only [Function.iterate_zero, id, LucasLehmer.sMod]
    rw [Int.emod_eq_of_lt] <;> omega
  | succ k ih =>
    rw [Function.iterate_succ_apply', ih, LucasLehmer.sMod,
      Int.fmod_eq_emod_of_nonneg _ (by omega), pow_two]

end Rosemary.Primality

namespace Rosemary.Classification

open Rosemary.Core

/-- `n` is a `k`-th power for some `k ≥ 2`. -/
def PerfectPower (n : Nat) : Prop := ∃ b k, 2 ≤ k ∧ b ^ k = n

theorem sq_mod_of_dvd_sub (m a b : Nat) (h : a % m = b ∨ a % m = m - b) (hb : b ≤ m) :
    a * a % m = b * b % m := by
  rcases h with h | h
  · rw [Nat.mul_mod, h]
  · rw [Nat.mul_mod, h]
    have : (m - b) * (m - b) ≡ b * b [MOD m] := by
      rw [← Int.natCast_modEq_iff]
      push_cast [Nat.cast_sub hb]
      refine (Int.modEq_iff_dvd.2 ⟨2 * b - m, by ring⟩)
    exact this

theorem q64_square (x : Nat) : q64 (x * x % 64) = true := by
  simp only [q64, List.any_eq_true, List.mem_range, beq_iff_eq]
  have hlt := Nat.mod_lt x (show 64 > 0 by norm_num)
  by_cases h : x % 64 < 32
  · exact ⟨x % 64, h, by rw [← Nat.mul_mod]⟩
  · by_cases h' : x % 64 = 32
    · exact ⟨0, by norm_num, by rw [Nat.mul_mod x x, h']⟩
    · refine ⟨64 - x % 64, by omega, ?_⟩
      exact (sq_mod_of_dvd_sub 64 x _ (by omega) (by omega)).symm

theorem q45045_square (x : Nat) : q45045 (x * x % 45045) = true := by
  simp only [q45045, List.any_eq_true, List.mem_range, beq_iff_eq]
  have hlt := Nat.mod_lt x (show 45045 > 0 by norm_num)
  by_cases h : x % 45045 < 22522
  · exact ⟨x % 45045, h, by rw [← Nat.mul_mod]⟩
  · by_cases h' : x % 45045 = 22522 ∨ x % 45045 = 22523
    · -- the residue `22522` is missed by the loop but has the same square as `787`
      refine ⟨787, by norm_num, ?_⟩
      rcases h' with h' | h' <;> rw [Nat.mul_mod x x, h']
    · refine ⟨45045 - x % 45045, by omega, ?_⟩
      exact (sq_mod_of_dvd_sub 45045 x _ (by omega) (by omega)).symm

theorem integerNthRoot_exact (k b : Nat) (hk : 1 ≤ k) :
    integerNthRoot k ((b ^ k : Nat) : Int) = .ok b := by
  by_cases h2 : k = 2
  · subst h2
    obtain ⟨r, h1, h2, h3, h4⟩ := integerSqrt_nat (b ^ 2)
    have := Props.C08_integer_nth_root_two ((b ^ 2 : Nat) : Int)
    rw [Nat.cast_ofNat, this, h1, h4 (by rw [Nat.sqrt_eq']; ring), Nat.sqrt_eq']
  · obtain ⟨r, h1, h3, h4⟩ := Props.C08_integer_nth_root_partial k ((b ^ k : Nat) : Int) (by omega)
      (by positivity) (by omega)
    rw [h1]
    rw [Int.toNat_natCast] at h3 h4
    have h5 : r ^ k ≤ b ^ k := by exact_mod_cast h3
    have h6 : b ^ k < (r + 1) ^ k := by exact_mod_cast h4
    have h7 := (Nat.pow_le_pow_iff_left (by omega)).1 h5
    have h8 := (Nat.pow_lt_pow_iff_left (by omega)).1 h6
    congr 1; omega

theorem integerNthRoot_ok (k n : Nat) (hk : 1 ≤ k) : ∃ r, integerNthRoot k n = .ok r := by
  by_cases h2 : k = 2
  · subst h2
    obtain ⟨r, h1, _⟩ := integerSqrt_nat n
    exact ⟨r, by rw [Nat.cast_ofNat, Props.C08_integer_nth_root_two, h1]⟩
  · obtain ⟨r, h1, _⟩ := Props.C08_integer_nth_root_partial k n (by omega) (by positivity) (by omega)
    exact ⟨r, h1⟩

theorem isPowerWhile_of_none (base e : Nat) (h : isPower base = some (.ok none)) :
    isPowerWhile base e = some (.ok (some (base, e))) := by
  rw [isPowerWhile, h]; rfl

theorem isPowerFor_spec (n : Nat) (hn : 2 ≤ n) (k : Nat) (hk : 2 ≤ k)
    (ih : ∀ m, 2 ≤ m → m < n → ∃ r, isPower m = some (.ok r) ∧
      ((r = none ∧ ¬ PerfectPower m) ∨
        ∃ b e, r = some (b, e) ∧ 2 ≤ e ∧ b ^ e = m ∧ ¬ PerfectPower b))
    (hno : ∀ j b, 2 ≤ j → j < k → b ^ j ≠ n) :
    ∃ r, isPowerFor n k = some (.ok r) ∧
      ((r = none ∧ ¬ PerfectPower n) ∨
        ∃ b e, r = some (b, e) ∧ 2 ≤ e ∧ b ^ e = n ∧ ¬ PerfectPower b) := by
  obtain ⟨t, ht⟩ : ∃ t, n.size + 1 - k = t := ⟨_, rfl⟩
  induction t using Nat.strong_induction_on generalizing k with
  | _ t iht =>
    rw [isPowerFor]
    simp only [Int.toNat_natCast]
    have hb2 : ∀ b j, 1 ≤ j → b ^ j = n → 2 ≤ b := by
      intro b j hj h
      rcases b with _ | _ | b
      · rw [zero_pow (by omega)] at h; omega
      · rw [zero_add, one_pow] at h; omega
      · omega
    split
    · rename_i hks
      obtain ⟨r, hr⟩ := integerNthRoot_ok k n (by omega)
      rw [hr]
      simp only
      split
      · rename_i he
        have he : r ^ k = n := by exact_mod_cast he
        have hr2 := hb2 r k (by omega) he
        have hrn : r < n := by
          rw [← he]; exact lt_self_pow₀ (by omega) (by omega)
        obtain ⟨r', h1, h2⟩ := ih r hr2 hrn
        rcases h2 with ⟨rfl, hpp⟩ | ⟨b, e, rfl, he2, hbe, hpp⟩
        · exact ⟨_, isPowerWhile_of_none r k h1, Or.inr ⟨r, k, rfl, hk, he, hpp⟩⟩
        · have hb2' : 2 ≤ b := by
            rcases b with _ | _ | b
            · rw [zero_pow (by omega)] at hbe; omega
            · rw [zero_add, one_pow] at hbe; omega
            · omega
          have hbr : b < r := by rw [← hbe]; exact lt_self_pow₀ (by omega) (by omega)
          obtain ⟨r'', h3, h4⟩ := ih b hb2' (by omega)
          have h5 : r'' = none := by
            rcases h4 with h4 | ⟨c, f, _, hf, hc, _⟩
            · exact h4.1
            · exact absurd ⟨c, f, hf, hc⟩ hpp
          subst h5
          refine ⟨some (b, k * e), ?_, Or.inr ⟨b, k * e, rfl, by nlinarith, ?_, hpp⟩⟩
          · rw [isPowerWhile, h1]
            exact isPowerWhile_of_none b (k * e) h3
          · rw [mul_comm, pow_mul, hbe, he]
      · rename_i he
        refine iht _ (by omega) (k + 1) (by omega) ?_ rfl
        intro j b hj hjk
        rcases Nat.lt_or_ge j k with h | h
        · exact hno j b hj h
        · have : j = k := by omega
          subst this
          intro hbj
          subst hbj
          rw [integerNthRoot_exact j b (by omega)] at hr
          cases hr
          exact he (by push_cast; rfl)
    · rename_i hks
      refine ⟨none, rfl, Or.inl ⟨rfl, ?_⟩⟩
      rintro ⟨b, j, hj, hbj⟩
      have hb := hb2 b j (by omega) hbj
      have h1 : 2 ^ j ≤ n := by rw [← hbj]; exact Nat.pow_le_pow_left hb j
      have h2 : j < n.size := Nat.lt_size.2 h1
      exact hno j b hj (by omega) hbj

theorem isPower_spec (n : Nat) (hn : 2 ≤ n) : ∃ r, isPower n = some (.ok r) ∧
    ((r = none ∧ ¬ PerfectPower n) ∨
      ∃ b e, r = some (b, e) ∧ 2 ≤ e ∧ b ^ e = n ∧ ¬ PerfectPower b) := by
  induction n using Nat.strong_induction_on with
  | _ n ih =>
    obtain ⟨r, h1, h2⟩ := isPowerFor_spec n hn 2 le_rfl (fun m h2 hm => ih m hm h2)
      (fun j b h1 h2 => by omega)
    refine ⟨r, ?_, h2⟩
    rw [isPower, if_neg (by omega)]; exact h1

theorem root_of_coprime (b c e j : Nat) (hb : 2 ≤ b) (hj : 1 ≤ j) (hc : Nat.Coprime j e)
    (h : b ^ e = c ^ j) : ∃ d, d ^ j = b := by
  refine ⟨Nat.floorRoot j b, ?_⟩
  have hbne : b ≠ 0 := by omega
  have hr : Nat.floorRoot j b ≠ 0 := by
    rw [Nat.floorRoot_ne_zero]; omega
  apply Nat.eq_of_factorization_eq (pow_ne_zero _ hr) hbne
  intro p
  rw [Nat.factorization_pow, Nat.factorization_floorRoot]
  simp only [Finsupp.smul_apply, smul_eq_mul, Finsupp.floorDiv_apply]
  have hf := congrArg (fun m => m.factorization p) h
  simp only [Nat.factorization_pow, Finsupp.smul_apply, smul_eq_mul] at hf
  have hd : j ∣ b.factorization p := hc.dvd_of_dvd_mul_left (Dvd.intro _ hf.symm)
  rw [Nat.floorDiv_eq_div]
  exact Nat.mul_div_cancel' hd

/-- When `b` is not a perfect power, `e` is the largest exponent for `b ^ e`. -/
theorem exponent_maximal (b c e j : Nat) (hb : 2 ≤ b) (he : 1 ≤ e) (hj : 1 ≤ j)
    (hpp : ¬ PerfectPower b) (h : c ^ j = b ^ e) : j ≤ e := by
  obtain ⟨g, e', j', hg, hco, rfl, rfl⟩ := Nat.exists_coprime' (m := e) (n := j)
    (Nat.gcd_pos_of_pos_left _ he)
  have h' : c ^ j' = b ^ e' := by
    rw [pow_mul, pow_mul] at h
    exact (Nat.pow_left_injective (by omega : g ≠ 0)) h
  have hj' : 1 ≤ j' := Nat.pos_of_mul_pos_right (by omega : 0 < j' * g) 
  obtain ⟨d, hd⟩ := root_of_coprime b c e' j' hb hj' hco.symm h'.symm
  have : ¬ 2 ≤ j' := fun h2 => hpp ⟨d, j', h2, hd⟩
  have hj1 : j' = 1 := by omega
  subst hj1
  have : 1 ≤ e' := by
    rcases Nat.eq_zero_or_pos e' with h0 | h0
    · subst h0; omega
    · exact h0
  nlinarith

theorem isFactorialLoop_spec (n product k : Nat) (hp : 0 < product) (hk : 2 ≤ k)
    (hfac : product = (k - 1).factorial) (hlt : ∀ m, 1 ≤ m → m < k - 1 → m.factorial < n) :
    isFactorialLoop n product k hp hk = true ↔ ∃ m : Nat, m.factorial = n := by
  fun_induction isFactorialLoop n product k hp hk with
  | case1 product k hp hk h ih =>
    apply ih
    · rw [hfac]
      obtain ⟨j, rfl⟩ : ∃ j, k = j + 1 := ⟨k - 1, by omega⟩
      simp [Nat.factorial_succ, mul_comm]
    · intro m h1 h2
      rcases Nat.lt_or_ge m (k - 1) with h3 | h3
      · exact hlt m h1 h3
      · have : m = k - 1 := by omega
        subst this; omega
  | case2 product k hp hk h =>
    simp only [beq_iff_eq]
    constructor
    · rintro rfl; exact ⟨k - 1, hfac.symm⟩
    · rintro ⟨m, rfl⟩
      rcases Nat.lt_or_ge m (k - 1) with h3 | h3
      · rcases Nat.eq_zero_or_pos m with rfl | h0
        · have hk2 : k - 1 = 1 := by
            by_contra hc
            have := hlt 1 le_rfl (by omega)
            simp at this
          rw [hfac, hk2]; rfl
        · have := hlt m h0 h3; omega
      · have := Nat.factorial_le h3
        omega

end Rosemary.Classification
