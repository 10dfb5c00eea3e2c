import Verif.Model.InverseFunctions
import Verif.Props.Primality
import Verif.Props.Factorization
import Mathlib.Data.Nat.Totient

/-!
# Lemmas about `euler_phi_inverse`
-/

namespace Rosemary.InverseFunctions

open Rosemary.Factorization Rosemary.Primality Rosemary.Props

theorem primeSuccs_eq (T : List Nat) (hT : IsPrimeTable T) (l : List Nat) :
    primeSuccs T l = .ok ((l.map (· + 1)).filter (fun q => decide q.Prime)) := by
  induction l with
  | nil => rfl
  | cons d ds ih =>
    rw [primeSuccs]
    obtain ⟨b, hb, hb2⟩ := C16_is_prime T hT ((d + 1 : Nat) : Int)
    rw [hb, ih]
    dsimp only
    have hiff : b = true ↔ (d + 1).Prime := by
      rw [hb2]
      constructor
      · rintro ⟨p, hp, h⟩
        have : d + 1 = p := by exact_mod_cast h
        rwa [this]
      · intro h; exact ⟨_, h, rfl⟩
    rw [List.map_cons, List.filter_cons]
    by_cases h : (d + 1).Prime
    · rw [hiff.2 h]; simp [h]
    · have : b = false := by
        cases b with
        | true => exact absurd (hiff.1 rfl) h
        | false => rfl
      rw [this]; simp [h]

/-! ## powPairs -/

theorem powPairs_spec (p a : Nat) (hp : 2 ≤ p) (ha : 0 < a) (d : Nat) (hd : 0 < d) (pk : Nat) (hpk : 0 < pk)
    (acc : List (Nat × Nat)) :
    ∃ L, powPairs p a pk d 0 acc = some (acc ++ L) ∧ L.Nodup ∧
      ∀ x y, (x, y) ∈ L ↔ ∃ j, p ^ j ∣ d ∧ x = pk * p ^ j * a ∧ y = d / p ^ j ∧ (y % 2 = 0 ∨ y = 1) := by
  induction d using Nat.strong_induction_on generalizing pk acc with
  | _ d ih =>
    rw [powPairs.eq_def, if_pos rfl]
    by_cases h : d % p = 0
    · have hpd : p ∣ d := Nat.dvd_of_mod_eq_zero h
      have h1 : 0 < d / p := Nat.div_pos (Nat.le_of_dvd hd hpd) (by omega)
      obtain ⟨L, h2, h3, h4⟩ := ih (d / p) (Nat.div_lt_self hd (by omega)) h1 (pk * p) (by positivity)
        (if d % 2 = 0 ∨ d = 1 then acc ++ [(pk * a, d)] else acc)
      rw [h, h2]
      have hmem : ∀ x y, ((x, y) ∈ L ∨ ((d % 2 = 0 ∨ d = 1) ∧ x = pk * a ∧ y = d)) ↔
          ∃ j, p ^ j ∣ d ∧ x = pk * p ^ j * a ∧ y = d / p ^ j ∧ (y % 2 = 0 ∨ y = 1) := by
        intro x y
        rw [h4]
        constructor
        · rintro (⟨j, k1, k2, k3, k4⟩ | ⟨k1, k2, k3⟩)
          · refine ⟨j + 1, ?_, ?_, ?_, k4⟩
            · rw [pow_succ, mul_comm]
              exact (Nat.dvd_div_iff_mul_dvd hpd).1 k1
            · rw [k2, pow_succ]; ring
            · rw [k3, Nat.div_div_eq_div_mul, pow_succ, mul_comm]
          · refine ⟨0, by simp, by simp [k2], by simp [k3], by rw [k3]; exact k1⟩
        · rintro ⟨j, k1, k2, k3, k4⟩
          cases j with
          | zero =>
            right
            simp only [pow_zero, mul_one, Nat.div_one] at k2 k3
            exact ⟨by rw [← k3]; exact k4, k2, k3⟩
          | succ j =>
            left
            refine ⟨j, ?_, ?_, ?_, k4⟩
            · rw [pow_succ, mul_comm] at k1
              exact (Nat.dvd_div_iff_mul_dvd hpd).2 k1
            · rw [k2, pow_succ]; ring
            · rw [k3, Nat.div_div_eq_div_mul, pow_succ, mul_comm]
      by_cases hc : d % 2 = 0 ∨ d = 1
      · rw [if_pos hc]
        refine ⟨(pk * a, d) :: L, by simp, ?_, ?_⟩
        · rw [List.nodup_cons]
          refine ⟨fun hm => ?_, h3⟩
          obtain ⟨j, -, k2, -, -⟩ := (h4 _ _).1 hm
          have e : pk * a * 1 = pk * a * (p * p ^ j) := by
            rw [mul_one]
            exact k2.trans (by ring)
          have := Nat.eq_of_mul_eq_mul_left (by positivity) e
          have h5 : 1 ≤ p ^ j := Nat.one_le_pow _ _ (by omega)
          nlinarith
        · intro x y
          rw [← hmem, List.mem_cons, Prod.mk.injEq]
          tauto
      · rw [if_neg hc]
        refine ⟨L, rfl, h3, ?_⟩
        intro x y
        rw [← hmem]
        tauto
    · rw [powPairs.eq_def, if_neg h]
      have hmem : ∀ x y : Nat, ((d % 2 = 0 ∨ d = 1) ∧ x = pk * a ∧ y = d) ↔
          ∃ j, p ^ j ∣ d ∧ x = pk * p ^ j * a ∧ y = d / p ^ j ∧ (y % 2 = 0 ∨ y = 1) := by
        intro x y
        constructor
        · rintro ⟨k1, k2, k3⟩
          exact ⟨0, by simp, by simp [k2], by simp [k3], by rw [k3]; exact k1⟩
        · rintro ⟨j, k1, k2, k3, k4⟩
          cases j with
          | zero =>
            simp only [pow_zero, mul_one, Nat.div_one] at k2 k3
            exact ⟨by rw [← k3]; exact k4, k2, k3⟩
          | succ j =>
            exact absurd (Nat.mod_eq_zero_of_dvd (dvd_trans (Dvd.intro_left _ (pow_succ p j).symm) k1)) h
      by_cases hc : d % 2 = 0 ∨ d = 1
      · rw [if_pos hc]
        refine ⟨[(pk * a, d)], rfl, by simp, ?_⟩
        intro x y
        rw [← hmem, List.mem_singleton, Prod.mk.injEq]
        tauto
      · rw [if_neg hc]
        refine ⟨[], by simp, by simp, ?_⟩
        intro x y
        rw [← hmem]
        simp [hc]

/-- The pairs produced from `(a, b)` for the prime `p`. -/
def Made (p : Nat) (ab xy : Nat × Nat) : Prop :=
  ab.2 ≠ 1 ∧ ∃ j, ab.2 = (p - 1) * p ^ j * xy.2 ∧ xy.1 = p ^ (j + 1) * ab.1 ∧ (xy.2 % 2 = 0 ∨ xy.2 = 1)

theorem pairsLoop_spec (p : Nat) (hp : p.Prime) (pairs acc : List (Nat × Nat))
    (hpos : ∀ ab ∈ pairs, 0 < ab.1 ∧ 0 < ab.2) (hnd : pairs.Nodup)
    (hco : ∀ ab ∈ pairs, ¬ p ∣ ab.1) (hfun : ∀ ab ∈ pairs, ∀ cd ∈ pairs, ab.1 = cd.1 → ab = cd) :
    ∃ L, pairsLoop p pairs acc = some (acc ++ L) ∧ L.Nodup ∧
      ∀ xy, xy ∈ L ↔ ∃ ab ∈ pairs, Made p ab xy := by
  induction pairs generalizing acc with
  | nil => exact ⟨[], by simp [pairsLoop], by simp, by simp⟩
  | cons ab rest ih =>
    obtain ⟨a, b⟩ := ab
    rw [pairsLoop]
    have hrec := fun acc' => ih acc' (fun ab h => hpos ab (List.mem_cons_of_mem _ h)) (List.nodup_cons.1 hnd).2
      (fun ab h => hco ab (List.mem_cons_of_mem _ h))
      (fun x hx y hy => hfun x (List.mem_cons_of_mem _ hx) y (List.mem_cons_of_mem _ hy))
    by_cases hb : b = 1
    · rw [if_pos hb]
      obtain ⟨L, h1, h2, h3⟩ := hrec acc
      refine ⟨L, h1, h2, fun xy => ?_⟩
      rw [h3]
      constructor
      · rintro ⟨ab, k1, k2⟩; exact ⟨ab, List.mem_cons_of_mem _ k1, k2⟩
      · rintro ⟨ab, k1, k2⟩
        rcases List.mem_cons.1 k1 with rfl | k1
        · exact absurd hb k2.1
        · exact ⟨ab, k1, k2⟩
    · rw [if_neg hb]
      have hp2 := hp.two_le
      obtain ⟨ha0, hb0⟩ := hpos (a, b) (by simp)
      have key : ∃ L, powPairs p a p (b / (p - 1)) (b % (p - 1)) acc = some (acc ++ L) ∧ L.Nodup ∧
          ∀ xy, xy ∈ L ↔ Made p (a, b) xy := by
        by_cases hm : b % (p - 1) = 0
        · have hd : (p - 1) ∣ b := Nat.dvd_of_mod_eq_zero hm
          obtain ⟨L, h1, h2, h3⟩ := powPairs_spec p a hp2 ha0 (b / (p - 1))
            (Nat.div_pos (Nat.le_of_dvd hb0 hd) (by omega)) p (by omega) acc
          rw [hm]
          refine ⟨L, h1, h2, ?_⟩
          rintro ⟨x, y⟩
          rw [h3]
          unfold Made
          dsimp only
          constructor
          · rintro ⟨j, k1, k2, k3, k4⟩
            refine ⟨hb, j, ?_, by rw [k2, pow_succ]; ring, k4⟩
            rw [k3, mul_assoc, Nat.mul_div_cancel' k1, Nat.mul_div_cancel' hd]
          · rintro ⟨-, j, k2, k3, k4⟩
            have e : b / (p - 1) = p ^ j * y := by
              rw [k2, mul_assoc, Nat.mul_div_cancel_left _ (by omega)]
            refine ⟨j, by rw [e]; exact Dvd.intro _ rfl, by rw [k3, pow_succ]; ring, ?_, k4⟩
            rw [e, Nat.mul_div_cancel_left _ (by positivity)]
        · rw [powPairs.eq_def, if_neg hm]
          refine ⟨[], by simp, by simp, ?_⟩
          rintro ⟨x, y⟩
          simp only [List.not_mem_nil, false_iff]
          rintro ⟨-, j, k2, -, -⟩
          dsimp only at k2
          exact hm (by rw [k2, mul_assoc]; exact Nat.mul_mod_right _ _)
      obtain ⟨L1, h1, h2, h3⟩ := key
      obtain ⟨L2, g1, g2, g3⟩ := hrec (acc ++ L1)
      refine ⟨L1 ++ L2, ?_, ?_, ?_⟩
      · rw [h1]
        simp only [Option.bind_eq_bind, Option.bind_some, g1, List.append_assoc]
      · rw [List.nodup_append]
        refine ⟨h2, g2, ?_⟩
        rintro xy hx _ hy rfl
        obtain ⟨-, j, k1, k2, -⟩ := (h3 _).1 hx
        obtain ⟨cd, m1, -, i, l1, l2, -⟩ := (g3 _).1 hy
        dsimp only at k1 k2
        have hca : ¬ p ∣ a := hco (a, b) (by simp)
        have hcc : ¬ p ∣ cd.1 := hco cd (List.mem_cons_of_mem _ m1)
        have e : p ^ (j + 1) * a = p ^ (i + 1) * cd.1 := by rw [← k2, l2]
        have hac : a = cd.1 := by
          have ca : (p ^ (i + 1)).Coprime a := (Nat.Coprime.pow_left _ ((Nat.Prime.coprime_iff_not_dvd hp).2 hca))
          have cc : (p ^ (j + 1)).Coprime cd.1 := (Nat.Coprime.pow_left _ ((Nat.Prime.coprime_iff_not_dvd hp).2 hcc))
          have d1 : p ^ (i + 1) ∣ p ^ (j + 1) := ca.dvd_of_dvd_mul_right (by rw [e]; exact Dvd.intro _ rfl)
          have d2 : p ^ (j + 1) ∣ p ^ (i + 1) := cc.dvd_of_dvd_mul_right (by rw [← e]; exact Dvd.intro _ rfl)
          rw [Nat.dvd_antisymm d1 d2] at e
          exact Nat.eq_of_mul_eq_mul_left (by positivity) e
        have := hfun (a, b) (by simp) cd (List.mem_cons_of_mem _ m1) hac
        rw [← this] at m1
        exact (List.nodup_cons.1 hnd).1 m1
      · intro xy
        rw [List.mem_append, h3, g3]
        constructor
        · rintro (h | ⟨ab, k1, k2⟩)
          · exact ⟨(a, b), by simp, h⟩
          · exact ⟨ab, List.mem_cons_of_mem _ k1, k2⟩
        · rintro ⟨ab, k1, k2⟩
          rcases List.mem_cons.1 k1 with rfl | k1
          · exact Or.inl k2
          · exact Or.inr ⟨ab, k1, k2⟩

/-- The pairs after the primes of `S` have been processed. -/
structure PairInv (n : Nat) (S : List Nat) (pairs : List (Nat × Nat)) : Prop where
  nodup : pairs.Nodup
  mem : ∀ a b, (a, b) ∈ pairs ↔ 0 < a ∧ a.totient * b = n ∧ (∀ q, q.Prime → q ∣ a → q ∈ S) ∧
    (b % 2 = 0 ∨ b = 1)

theorem PairInv.step {n : Nat} (hn : 0 < n) {S : List Nat} {pairs : List (Nat × Nat)} (h : PairInv n S pairs)
    {p : Nat} (hp : p.Prime) (hp2 : p ≠ 2) (hpS : p ∉ S) :
    ∃ L, pairsLoop p pairs [] = some L ∧ PairInv n (p :: S) (pairs ++ L) := by
  have hodd : p % 2 = 1 := by
    rcases hp.eq_two_or_odd with h | h
    · exact absurd h hp2
    · exact h
  have hpos : ∀ ab ∈ pairs, 0 < ab.1 ∧ 0 < ab.2 := by
    rintro ⟨a, b⟩ hab
    obtain ⟨h1, h2, -⟩ := (h.mem a b).1 hab
    refine ⟨h1, Nat.pos_of_ne_zero ?_⟩
    rintro hb
    dsimp only at hb
    rw [hb, mul_zero] at h2
    omega
  have hco : ∀ ab ∈ pairs, ¬ p ∣ ab.1 := by
    rintro ⟨a, b⟩ hab hd
    exact hpS (((h.mem a b).1 hab).2.2.1 p hp hd)
  obtain ⟨L, h1, h2, h3⟩ := pairsLoop_spec p hp pairs [] hpos h.nodup hco (by
    rintro ⟨a, b⟩ hab ⟨c, d⟩ hcd (rfl : a = c)
    obtain ⟨k1, k2, -⟩ := (h.mem a b).1 hab
    obtain ⟨-, l2, -⟩ := (h.mem a d).1 hcd
    have : b = d := Nat.eq_of_mul_eq_mul_left (Nat.totient_pos.2 k1) (k2.trans l2.symm)
    rw [this])
  refine ⟨L, by simpa using h1, ?_, ?_⟩
  · rw [List.nodup_append]
    refine ⟨h.nodup, h2, ?_⟩
    rintro xy hx _ hy rfl
    obtain ⟨cd, m1, -, i, l1, l2, -⟩ := (h3 _).1 hy
    refine hco _ hx ?_
    rw [l2, pow_succ, mul_assoc, mul_left_comm]
    exact Dvd.intro _ rfl
  · intro A B
    rw [List.mem_append, h.mem, h3]
    constructor
    · rintro (⟨k1, k2, k3, k4⟩ | ⟨⟨a, b⟩, k1, k2, j, k3, k4, k5⟩)
      · exact ⟨k1, k2, fun q hq hd => List.mem_cons_of_mem _ (k3 q hq hd), k4⟩
      · dsimp only at k2 k3 k4 k5
        obtain ⟨l1, l2, l3, -⟩ := (h.mem a b).1 k1
        have hc : ¬ p ∣ a := hco _ k1
        refine ⟨by rw [k4]; have := hp.pos; positivity, ?_, ?_, k5⟩
        · rw [k4, Nat.totient_mul (Nat.Coprime.pow_left _ ((Nat.Prime.coprime_iff_not_dvd hp).2 hc)),
            Nat.totient_prime_pow_succ hp, ← l2, k3]
          ring
        · intro q hq hd
          rw [k4] at hd
          rcases (Nat.Prime.dvd_mul hq).1 hd with hd | hd
          · rw [(Nat.prime_dvd_prime_iff_eq hq hp).1 (hq.dvd_of_dvd_pow hd)]
            simp
          · exact List.mem_cons_of_mem _ (l3 q hq hd)
    · rintro ⟨k1, k2, k3, k4⟩
      by_cases hd : p ∣ A
      · right
        obtain ⟨e, a, hca, hA⟩ := Nat.exists_eq_pow_mul_and_not_dvd k1.ne' p hp.ne_one
        obtain ⟨j, rfl⟩ : ∃ j, e = j + 1 := by
          cases e with
          | zero => rw [hA, pow_zero, one_mul] at hd; exact absurd hd hca
          | succ j => exact ⟨j, rfl⟩
        have ha0 : 0 < a := by
          rcases Nat.eq_zero_or_pos a with h0 | h0
          · rw [h0] at hca; exact absurd (dvd_zero _) hca
          · exact h0
        have heven : ((p - 1) * p ^ j * B) % 2 = 0 := by
          have : (p - 1) % 2 = 0 := by omega
          rw [mul_assoc, Nat.mul_mod, this, zero_mul, Nat.zero_mod]
        have hb1 : (p - 1) * p ^ j * B ≠ 1 := by omega
        refine ⟨(a, (p - 1) * p ^ j * B), ?_, hb1, j, rfl, hA, k4⟩
        rw [h.mem]
        refine ⟨ha0, ?_, ?_, Or.inl heven⟩
        · rw [← k2, hA, Nat.totient_mul (Nat.Coprime.pow_left _ ((Nat.Prime.coprime_iff_not_dvd hp).2 hca)),
            Nat.totient_prime_pow_succ hp]
          ring
        · intro q hq hqa
          rcases List.mem_cons.1 (k3 q hq (by rw [hA]; exact dvd_mul_of_dvd_right hqa _)) with rfl | hm
          · exact absurd hqa hca
          · exact hm
      · left
        refine ⟨k1, k2, ?_, k4⟩
        intro q hq hqa
        rcases List.mem_cons.1 (k3 q hq hqa) with rfl | hm
        · exact absurd hqa hd
        · exact hm

theorem primesLoop_spec {n : Nat} (hn : 0 < n) (ps S : List Nat) (pairs : List (Nat × Nat))
    (h : PairInv n S pairs) (hp : ∀ p ∈ ps, p.Prime ∧ p ≠ 2) (hnd : ps.Nodup) (hdis : ∀ p ∈ ps, p ∉ S) :
    ∃ out S', primesLoop ps pairs = some out ∧ PairInv n S' out ∧ ∀ q, q ∈ S' ↔ q ∈ ps ∨ q ∈ S := by
  induction ps generalizing S pairs with
  | nil => exact ⟨pairs, S, rfl, h, by simp⟩
  | cons p ps ih =>
    obtain ⟨L, h1, h2⟩ := h.step hn (hp p (by simp)).1 (hp p (by simp)).2 (hdis p (by simp))
    obtain ⟨out, S', g1, g2, g3⟩ := ih (p :: S) (pairs ++ L) h2 (fun q hq => hp q (List.mem_cons_of_mem _ hq))
      (List.nodup_cons.1 hnd).2 (by
        intro q hq hm
        rcases List.mem_cons.1 hm with rfl | hm
        · exact (List.nodup_cons.1 hnd).1 hq
        · exact hdis q (List.mem_cons_of_mem _ hq) hm)
    refine ⟨out, S', ?_, g2, ?_⟩
    · rw [primesLoop, h1]; exact g1
    · intro q
      rw [g3, List.mem_cons, List.mem_cons]
      tauto

/-! ## The values -/

theorem mem_powersOfTwo (n e b : Nat) : b ∈ powersOfTwo n e ↔ b = 1 ∨ (n % 2 = 0 ∧ ∃ i, 1 ≤ i ∧ i ≤ e ∧ b = 2 ^ i) := by
  unfold powersOfTwo
  by_cases h : n % 2 = 0
  · rw [if_pos h]
    simp only [List.mem_cons, List.mem_map, List.mem_range'_1, h, true_and]
    constructor
    · rintro (h | ⟨i, h1, rfl⟩)
      · exact Or.inl h
      · exact Or.inr ⟨i, by omega, by omega, rfl⟩
    · rintro (h | ⟨i, h1, h2, rfl⟩)
      · exact Or.inl h
      · exact Or.inr ⟨i, by omega, rfl⟩
  · rw [if_neg h]
    simp [h]

/-- When `b` is a power of two and `a` is odd, `2 * b * a` determines `a` and `b`. -/
theorem two_pow_mul_inj {i j a c : Nat} (ha : a % 2 = 1) (hc : c % 2 = 1) (h : 2 ^ i * a = 2 ^ j * c) :
    i = j ∧ a = c := by
  have ca : (2 ^ j).Coprime a := Nat.Coprime.pow_left _ (Nat.coprime_two_left.2 (Nat.odd_iff.2 ha))
  have cc : (2 ^ i).Coprime c := Nat.Coprime.pow_left _ (Nat.coprime_two_left.2 (Nat.odd_iff.2 hc))
  have d1 : 2 ^ j ∣ 2 ^ i := ca.dvd_of_dvd_mul_right (by rw [h]; exact Dvd.intro _ rfl)
  have d2 : 2 ^ i ∣ 2 ^ j := cc.dvd_of_dvd_mul_right (by rw [← h]; exact Dvd.intro _ rfl)
  have e := Nat.dvd_antisymm d1 d2
  rw [e] at h
  exact ⟨(Nat.pow_right_injective (le_refl 2) e).symm, Nat.eq_of_mul_eq_mul_left (by positivity) h⟩

theorem collect_spec {n e : Nat} (hn : 0 < n) (he : n % 2 = 0 → 2 ^ (e + 1) ∣ n → False)
    {S : List Nat} {pairs : List (Nat × Nat)} (h : PairInv n S pairs) (h2 : 2 ∉ S)
    (hS : ∀ q, q.Prime → q ≠ 2 → q - 1 ∣ n → q ∈ S) :
    (collect (powersOfTwo n e) pairs).Nodup ∧
      ∀ k, k ∈ collect (powersOfTwo n e) pairs ↔ k.totient = n := by
  have hoddP : ∀ a b, (a, b) ∈ pairs → a % 2 = 1 := by
    intro a b hab
    obtain ⟨-, -, h3, -⟩ := (h.mem a b).1 hab
    by_contra hc
    exact h2 (h3 2 Nat.prime_two (by omega))
  have hpow : ∀ b, b ∈ powersOfTwo n e → ∃ i, b = 2 ^ i := by
    intro b hb
    rcases (mem_powersOfTwo n e b).1 hb with rfl | ⟨-, i, -, -, h⟩
    · exact ⟨0, rfl⟩
    · exact ⟨i, h⟩
  have hmemc : ∀ k, k ∈ collect (powersOfTwo n e) pairs ↔
      ∃ a b, (a, b) ∈ pairs ∧ b ∈ powersOfTwo n e ∧ (k = 2 * b * a ∨ (b = 1 ∧ k = a)) := by
    intro k
    unfold collect
    rw [List.mem_flatMap]
    constructor
    · rintro ⟨⟨a, b⟩, h1, h3⟩
      dsimp only at h3
      by_cases hb : b ∈ powersOfTwo n e
      · rw [if_pos hb] at h3
        refine ⟨a, b, h1, hb, ?_⟩
        by_cases h4 : b = 1
        · rw [if_pos h4] at h3
          simp only [List.mem_cons, List.not_mem_nil, or_false] at h3
          rcases h3 with h3 | h3
          · exact Or.inl h3
          · exact Or.inr ⟨h4, h3⟩
        · rw [if_neg h4] at h3
          exact Or.inl (List.mem_singleton.1 h3)
      · rw [if_neg hb] at h3; cases h3
    · rintro ⟨a, b, h1, hb, h3⟩
      refine ⟨(a, b), h1, ?_⟩
      dsimp only
      rw [if_pos hb]
      by_cases h4 : b = 1
      · rw [if_pos h4]
        rcases h3 with h3 | ⟨-, h3⟩
        · simp [h3]
        · simp [h3]
      · rw [if_neg h4]
        rcases h3 with h3 | ⟨h5, -⟩
        · simp [h3]
        · exact absurd h5 h4
  constructor
  · unfold collect
    rw [List.nodup_flatMap]
    constructor
    · rintro ⟨a, b⟩ hab
      dsimp only
      have := hoddP a b hab
      by_cases hb : b ∈ powersOfTwo n e
      · rw [if_pos hb]
        by_cases h4 : b = 1
        · rw [if_pos h4, h4]
          simp only [List.nodup_cons, List.mem_singleton, List.not_mem_nil, not_false_eq_true, List.nodup_nil,
            and_true]
          omega
        · rw [if_neg h4]; simp
      · rw [if_neg hb]; simp
    · refine h.nodup.imp_of_mem ?_
      rintro ⟨a, b⟩ ⟨c, d⟩ hab hcd hne
      simp only [Function.onFun]
      intro x hx hy
      have oa := hoddP a b hab
      have oc := hoddP c d hcd
      apply hne
      have key : ∀ (a b : Nat), a % 2 = 1 → x ∈ (if b ∈ powersOfTwo n e then (if b = 1 then [2 * b * a, a] else [2 * b * a]) else []) →
          ∃ i, x = 2 ^ i * a ∧ ((i = 0 ∧ b = 1) ∨ b = 2 ^ (i - 1)) := by
        intro a b _ hx
        by_cases hb : b ∈ powersOfTwo n e
        · rw [if_pos hb] at hx
          obtain ⟨i, hi⟩ := hpow b hb
          by_cases h4 : b = 1
          · rw [if_pos h4] at hx
            simp only [List.mem_cons, List.not_mem_nil, or_false] at hx
            rcases hx with hx | hx
            · exact ⟨1, by rw [hx, h4]; ring, Or.inr (by simp [h4])⟩
            · exact ⟨0, by rw [hx]; ring, Or.inl ⟨rfl, h4⟩⟩
          · rw [if_neg h4] at hx
            refine ⟨i + 1, by rw [List.mem_singleton.1 hx, hi]; ring, Or.inr (by simp [hi])⟩
        · rw [if_neg hb] at hx; cases hx
      obtain ⟨i, hi, _⟩ := key a b oa hx
      obtain ⟨j, hj, _⟩ := key c d oc hy
      obtain ⟨-, rfl⟩ := two_pow_mul_inj oa oc (hi.symm.trans hj)
      obtain ⟨k1, k2, -⟩ := (h.mem a b).1 hab
      obtain ⟨-, l2, -⟩ := (h.mem a d).1 hcd
      rw [Nat.eq_of_mul_eq_mul_left (Nat.totient_pos.2 k1) (k2.trans l2.symm)]
  · intro k
    rw [hmemc]
    constructor
    · rintro ⟨a, b, h1, hb, h3⟩
      have oa := hoddP a b h1
      obtain ⟨-, k2, -⟩ := (h.mem a b).1 h1
      obtain ⟨i, rfl⟩ := hpow b hb
      rcases h3 with rfl | ⟨h4, rfl⟩
      · have ca : (2 ^ (i + 1)).Coprime a := Nat.Coprime.pow_left _ (Nat.coprime_two_left.2 (Nat.odd_iff.2 oa))
        rw [show 2 * 2 ^ i * a = 2 ^ (i + 1) * a by ring, Nat.totient_mul ca,
          Nat.totient_prime_pow_succ Nat.prime_two, ← k2]
        ring
      · rw [← k2, h4, mul_one]
    · intro hk
      have hk0 : 0 < k := by
        rcases Nat.eq_zero_or_pos k with h0 | h0
        · rw [h0, Nat.totient_zero] at hk; omega
        · exact h0
      obtain ⟨i, a, hca, hA⟩ := Nat.exists_eq_pow_mul_and_not_dvd hk0.ne' 2 (by norm_num)
      have oa : a % 2 = 1 := by omega
      have ca : (2 ^ i).Coprime a := Nat.Coprime.pow_left _ (Nat.coprime_two_left.2 (Nat.odd_iff.2 oa))
      have hprimes : ∀ q, q.Prime → q ∣ a → q ∈ S := by
        intro q hq hd
        refine hS q hq ?_ ?_
        · rintro rfl; exact hca hd
        · have : q.totient ∣ k.totient := Nat.totient_dvd_of_dvd (by rw [hA]; exact dvd_mul_of_dvd_right hd _)
          rwa [Nat.totient_prime hq, hk] at this
      have ha0 : 0 < a := by omega
      have hphi : (2 ^ i).totient * a.totient = n := by rw [← Nat.totient_mul ca, ← hA, hk]
      refine ⟨a, (2 ^ i).totient, (h.mem _ _).2 ⟨ha0, by rw [mul_comm]; exact hphi, hprimes, ?_⟩, ?_, ?_⟩
      · cases i with
        | zero => right; simp
        | succ i =>
          rw [Nat.totient_prime_pow_succ Nat.prime_two]
          cases i with
          | zero => right; simp
          | succ i => left; rw [pow_succ]; omega
      · rw [mem_powersOfTwo]
        cases i with
        | zero => left; simp
        | succ i =>
          rw [Nat.totient_prime_pow_succ Nat.prime_two] at hphi ⊢
          cases i with
          | zero => left; simp
          | succ i =>
            right
            have h2n : n % 2 = 0 := by
              rw [← hphi, pow_succ]
              have : 2 ^ i * 2 * (2 - 1) * a.totient = 2 * (2 ^ i * a.totient) := by ring
              rw [this]; exact Nat.mul_mod_right _ _
            refine ⟨h2n, i + 1, by omega, ?_, by simp⟩
            by_contra hc
            refine he h2n (dvd_trans (pow_dvd_pow 2 (by omega : e + 1 ≤ i + 1)) ?_)
            rw [← hphi]
            exact Dvd.intro (a.totient) (by simp)
      · cases i with
        | zero => right; simp [hA]
        | succ i =>
          left
          rw [Nat.totient_prime_pow_succ Nat.prime_two, hA, pow_succ]
          ring_nf

theorem drop_one_divisors (fac : List (Nat × Nat)) (hf : DistinctPrimes fac) :
    (((divisors fac).drop 1)).Nodup ∧ ∀ d, d ∈ (divisors fac).drop 1 ↔ d ∣ facProd fac ∧ d ≠ 1 := by
  obtain ⟨h1, h2⟩ := C28_divisors fac hf
  have hpos := facProd_pos hf.prime
  have hone : 1 ∈ divisors fac := (h2 1).2 (one_dvd _)
  have hmin : ∀ d ∈ divisors fac, 1 ≤ d := fun d hd => Nat.pos_of_dvd_of_pos ((h2 d).1 hd) hpos
  cases hD : divisors fac with
  | nil => rw [hD] at hone; cases hone
  | cons x xs =>
    rw [hD] at h1 hone hmin
    obtain ⟨k1, k2⟩ := List.pairwise_cons.1 h1
    have hx : x = 1 := by
      rcases List.mem_cons.1 hone with h | h
      · exact h.symm
      · have := k1 1 h
        have := hmin x (by simp)
        omega
    refine ⟨?_, fun d => ?_⟩
    · rw [List.drop_one, List.tail_cons]
      exact k2.imp (fun h => Nat.ne_of_lt h)
    · rw [List.drop_one, List.tail_cons, ← h2, hD, List.mem_cons]
      constructor
      · intro h
        have := k1 d h
        exact ⟨Or.inr h, by omega⟩
      · rintro ⟨h | h, h3⟩
        · rw [hx] at h; exact absurd h h3
        · exact h

theorem core_spec (T : List Nat) (hT : IsPrimeTable T) (fac : List (Nat × Nat)) (hf : DistinctPrimes fac)
    (hne : fac ≠ []) (h2 : facProd fac % 2 = 0 → ∃ e rest, fac = (2, e) :: rest) (hlt : facProd fac ≠ 1) :
    ∃ L, eulerPhiInverseCore T (facProd fac) fac = some (.ok L) ∧ L.Pairwise (· < ·) ∧
      ∀ k, k ∈ L ↔ k.totient = facProd fac := by
  obtain ⟨⟨p0, e0⟩, rest, hfac⟩ := List.exists_cons_of_ne_nil hne
  have hpos := facProd_pos hf.prime
  obtain ⟨d1, d2⟩ := drop_one_divisors fac hf
  set ps := (((divisors fac).drop 1).map (· + 1)).filter (fun q => decide q.Prime) with hps
  have hmem : ∀ q, q ∈ ps ↔ q.Prime ∧ q ≠ 2 ∧ q - 1 ∣ facProd fac := by
    intro q
    rw [hps, List.mem_filter, List.mem_map]
    simp only [decide_eq_true_eq, d2]
    constructor
    · rintro ⟨⟨d, ⟨k1, k2⟩, rfl⟩, k3⟩
      exact ⟨k3, by omega, by simpa using k1⟩
    · rintro ⟨k1, k2, k3⟩
      have := k1.two_le
      exact ⟨⟨q - 1, ⟨k3, by omega⟩, by omega⟩, k1⟩
  have hnd : ps.Nodup := ((d1.map (fun a b h => Nat.succ_injective h))).filter _
  have hcore : eulerPhiInverseCore T (facProd fac) fac = (primesLoop ps.reverse [(1, facProd fac)]).bind
      (fun pairs => some (.ok (pySort (collect (powersOfTwo (facProd fac) e0) pairs) (· ≤ ·)))) := by
    unfold eulerPhiInverseCore
    rw [primeSuccs_eq T hT]
    rw [← hps]
    clear_value ps
    subst hfac
    rfl
  rw [hcore]
  by_cases hev : facProd fac % 2 = 0
  · obtain ⟨e, rest', h3⟩ := h2 hev
    have h4 : (p0, e0) = (2, e) := by rw [hfac] at h3; exact (List.cons.inj h3).1
    have hp0 : p0 = 2 := congrArg Prod.fst h4
    have hinit : PairInv (facProd fac) [] [(1, facProd fac)] := by
      refine ⟨by simp, fun a b => ?_⟩
      simp only [List.mem_singleton, Prod.mk.injEq, List.not_mem_nil]
      constructor
      · rintro ⟨rfl, rfl⟩
        refine ⟨by norm_num, by simp, ?_, Or.inl hev⟩
        intro q hq hd
        exact hq.one_lt.ne' (Nat.dvd_one.1 hd)
      · rintro ⟨k1, k2, k3, -⟩
        have : a = 1 := by
          by_contra hc
          exact k3 _ (Nat.minFac_prime hc) (Nat.minFac_dvd a)
        rw [this, Nat.totient_one, one_mul] at k2
        exact ⟨this, k2⟩
    obtain ⟨out, S', g1, g2, g3⟩ := primesLoop_spec hpos ps.reverse [] _ hinit
      (fun p hp => by
        have := (hmem p).1 (List.mem_reverse.1 hp)
        exact ⟨this.1, this.2.1⟩)
      (List.nodup_reverse.2 hnd) (by simp)
    obtain ⟨c1, c2⟩ := collect_spec (e := e0) hpos (by
      intro _ hd
      have h5 := facProd_factorization_mem hf (pe := (p0, e0)) (by rw [hfac]; simp)
      dsimp only at h5
      rw [hp0] at h5
      have := (Nat.prime_two.pow_dvd_iff_le_factorization hpos.ne').1 hd
      omega) g2 (by
        rw [g3]
        simp only [List.mem_reverse, List.not_mem_nil, or_false]
        intro h; exact ((hmem 2).1 h).2.1 rfl) (by
        intro q hq hq2 hd
        rw [g3]
        exact Or.inl (List.mem_reverse.2 ((hmem q).2 ⟨hq, hq2, hd⟩)))
    rw [g1]
    refine ⟨_, rfl, pySort_nat_lt _ c1, fun k => ?_⟩
    rw [mem_pySort, c2]
  · have hnil : ps = [] := by
      rw [List.eq_nil_iff_forall_not_mem]
      intro q hq
      obtain ⟨k1, k2, k3⟩ := (hmem q).1 hq
      rcases k1.eq_two_or_odd with h | h
      · exact k2 h
      · have : 2 ∣ facProd fac := dvd_trans (by omega) k3
        omega
    rw [hnil]
    have hcol : collect (powersOfTwo (facProd fac) e0) [(1, facProd fac)] = [] := by
      unfold collect powersOfTwo
      simp [hev, hlt]
    refine ⟨[], ?_, by simp, ?_⟩
    · simp only [List.reverse_nil, primesLoop, Option.bind_some, hcol]
      rfl
    · intro k
      simp only [List.not_mem_nil, false_iff]
      intro hk
      have hk2 : ¬ 2 < k := by
        intro h
        have := Nat.totient_even h
        rw [hk, Nat.even_iff] at this
        exact hev this
      have : k = 0 ∨ k = 1 ∨ k = 2 := by omega
      rcases this with rfl | rfl | rfl
      · rw [Nat.totient_zero] at hk; omega
      · rw [Nat.totient_one] at hk; exact hlt hk.symm
      · rw [Nat.totient_two] at hk; exact hlt hk.symm

/-- The factorization of a positive number as natural numbers. -/
theorem signed_toNat {fac : List (Int × Nat)} {n : Int} (hn : 1 ≤ n) (hf : IsSignedFactorization fac n) :
    DistinctPrimes (fac.map (fun pe => (pe.1.toNat, pe.2))) ∧
      ((facProd (fac.map (fun pe => (pe.1.toNat, pe.2))) : Nat) : Int) = n ∧
      (n % 2 = 0 → ∃ e rest, fac = (2, e) :: rest) ∧ (∀ pe ∈ fac, 0 < pe.1) := by
  have hprime : ∀ pe ∈ fac, ∃ p : Nat, p.Prime ∧ pe.1 = p := by
    intro pe hpe
    rcases hf.prime pe hpe with h | h
    · have := hf.sign.1 (by rw [← h]; exact hpe)
      omega
    · exact h
  have hinc := hf.increasing
  have hprod : ((facProd (fac.map (fun pe => (pe.1.toNat, pe.2))) : Nat) : Int) = n := by
    rw [← hf.prod]
    unfold facProd
    rw [Nat.cast_list_prod, List.map_map, List.map_map]
    congr 1
    refine List.map_congr_left ?_
    intro pe hpe
    obtain ⟨p, -, h⟩ := hprime pe hpe
    simp [h]
  have hdp : DistinctPrimes (fac.map (fun pe => (pe.1.toNat, pe.2))) := by
    constructor
    · intro pe hpe
      obtain ⟨qe, hq, rfl⟩ := List.mem_map.1 hpe
      obtain ⟨p, hp, h⟩ := hprime qe hq
      simpa [h] using hp
    · rw [List.map_map]
      have h2 : (fac.map Prod.fst).Nodup := hinc.imp (fun h => ne_of_lt h)
      have h3 : fac.map (Prod.fst ∘ fun pe : Int × Nat => (pe.1.toNat, pe.2)) = (fac.map Prod.fst).map Int.toNat := by
        rw [List.map_map]; rfl
      rw [h3]
      refine List.Nodup.map_on ?_ h2
      intro x hx y hy hxy
      obtain ⟨xe, h4, rfl⟩ := List.mem_map.1 hx
      obtain ⟨ye, h5, rfl⟩ := List.mem_map.1 hy
      obtain ⟨p, -, hp⟩ := hprime xe h4
      obtain ⟨q, -, hq⟩ := hprime ye h5
      rw [hp, hq] at hxy ⊢
      simpa using hxy
  refine ⟨hdp, hprod, ?_, fun pe hpe => ?_⟩
  · intro hev
    have h2 : 2 ∣ facProd (fac.map (fun pe => (pe.1.toNat, pe.2))) := by omega
    have hpos := facProd_pos hdp.prime
    have hin : 2 ∈ (fac.map (fun pe : Int × Nat => (pe.1.toNat, pe.2))).map Prod.fst := by
      by_contra hc
      have h0 := facProd_factorization_notMem hdp.prime 2 hc
      have := (Nat.prime_two.dvd_iff_one_le_factorization hpos.ne').1 h2
      omega
    cases fac with
    | nil => simp at hin
    | cons pe rest =>
      obtain ⟨p, e⟩ := pe
      refine ⟨e, rest, ?_⟩
      obtain ⟨q, hq, hpq⟩ := hprime (p, e) (by simp)
      dsimp only at hpq
      have := hq.two_le
      suffices p = 2 by rw [this]
      simp only [List.map_cons, List.mem_cons, List.mem_map] at hin
      rcases hin with h | ⟨a, ⟨b, hb, hba⟩, ha⟩
      · omega
      · have h3 := (List.pairwise_cons.1 hinc).1 b.1 (List.mem_map.2 ⟨b, hb, rfl⟩)
        have h4 : b.1.toNat = 2 := by rw [← ha, ← hba]
        dsimp only at h3
        omega
  · obtain ⟨p, hp, h⟩ := hprime pe hpe
    have := hp.pos
    omega

end Rosemary.InverseFunctions
