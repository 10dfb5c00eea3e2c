import Verif.Props.Sieves
import Mathlib.Tactic.IntervalCases

/-!
# C80: `prime_range`
-/

namespace Rosemary.Props

open Rosemary.Core Rosemary.Sieves Rosemary.Primality Rosemary.Spec

theorem fmod_toNat_spec (x : Int) {p : Nat} (hp : 0 < p) :
    (x.fmod p).toNat < p ∧ ((p : Int) ∣ (x.fmod p).toNat - x) := by
  rw [Int.fmod_eq_emod_of_nonneg _ (by omega)]
  have h1 := Int.emod_nonneg x (b := p) (by omega)
  have h2 := Int.emod_lt_of_pos x (b := p) (by omega)
  refine ⟨by omega, ?_⟩
  rw [Int.toNat_of_nonneg h1]
  exact ⟨-(x / p), by have := Int.emod_add_mul_ediv x p; linarith⟩

/-- The offset of `p` for the block that begins at `start`. -/
def OffsetOk (start : Nat) (po : Nat × Nat) : Prop :=
  po.2 < po.1 ∧ (po.1 : Int) ∣ start + 2 * po.2 + 1

theorem hit_offset {start p o j : Nat} (hp : p % 2 = 1) (h : OffsetOk start (p, o)) :
    hit o p j = true ↔ p ∣ start + 2 * j + 1 := by
  obtain ⟨h1, h2⟩ := h
  simp only at h1 h2
  have h2' : p ∣ start + 2 * o + 1 := by exact_mod_cast h2
  have hc : Nat.Coprime p 2 := Nat.coprime_two_right.2 (Nat.odd_iff.2 hp)
  rw [hit_iff]
  constructor
  · rintro ⟨hle, hd⟩
    have : start + 2 * j + 1 = (start + 2 * o + 1) + 2 * (j - o) := by omega
    rw [this]
    exact dvd_add h2' (hd.mul_left 2)
  · intro hd
    rcases Nat.lt_or_ge j o with hlt | hge
    · exfalso
      have h3 : p ∣ (start + 2 * o + 1) - (start + 2 * j + 1) := Nat.dvd_sub h2' hd
      rw [show (start + 2 * o + 1) - (start + 2 * j + 1) = 2 * (o - j) by omega] at h3
      have := Nat.le_of_dvd (by omega) (hc.dvd_of_dvd_mul_left h3)
      omega
    · refine ⟨hge, ?_⟩
      have h3 : p ∣ (start + 2 * j + 1) - (start + 2 * o + 1) := Nat.dvd_sub hd h2'
      rw [show (start + 2 * j + 1) - (start + 2 * o + 1) = 2 * (j - o) by omega] at h3
      exact hc.dvd_of_dvd_mul_left h3

theorem segmentPass_spec (start bs : Nat) (offsets : List (Nat × Nat))
    (hodd : ∀ po ∈ offsets, po.1 % 2 = 1) (hok : ∀ po ∈ offsets, OffsetOk start po)
    (block : List Bool) (hl : block.length = bs) :
    ∃ b os, segmentPass bs offsets block = .ok (b, os) ∧ b.length = bs ∧
      os.map Prod.fst = offsets.map Prod.fst ∧ (∀ po ∈ os, OffsetOk (start + 2 * bs) po) ∧
      ∀ j, b[j]? = some true ↔
        block[j]? = some true ∧ ∀ p ∈ offsets.map Prod.fst, ¬ p ∣ start + 2 * j + 1 := by
  induction offsets generalizing block with
  | nil => exact ⟨block, [], rfl, hl, rfl, by simp, by simp⟩
  | cons po rest ih =>
    obtain ⟨p, o⟩ := po
    have hp : p % 2 = 1 := hodd (p, o) (by simp)
    have ho := hok (p, o) (by simp)
    have hsz := listSliceZero_ceil (start := o) (step := p) hl (by omega)
    unfold ceilCount at hsz
    unfold segmentPass
    dsimp only
    rw [hsz]
    obtain ⟨b, os, hb, hbl, hos, hoks, hbj⟩ := ih (fun q hq => hodd q (by simp [hq]))
      (fun q hq => hok q (by simp [hq])) (cleared block o p) (by rw [length_cleared, hl])
    dsimp only
    rw [hb]
    refine ⟨b, _, rfl, hbl, by simp [hos], ?_, ?_⟩
    · intro q hq
      rcases List.mem_cons.1 hq with rfl | hq
      · obtain ⟨h1, h2⟩ := fmod_toNat_spec (-((bs : Int) - o)) (p := p) (by omega)
        refine ⟨h1, ?_⟩
        dsimp only
        have h3 := ho.2
        dsimp only at h3
        have : (((start + 2 * bs : Nat) : Int)) + 2 * ((-((bs : Int) - o)).fmod p).toNat + 1 =
            (start + 2 * o + 1) + 2 * (((-((bs : Int) - o)).fmod p).toNat - (-((bs : Int) - o))) := by
          push_cast; ring
        rw [this]
        exact dvd_add h3 (h2.mul_left 2)
      · exact hoks q hq
    · intro j
      rw [hbj j, cleared_get]
      simp only [List.map_cons, List.forall_mem_cons]
      rw [← hit_offset hp ho (j := j)]
      cases hb : block[j]? with
      | none => simp
      | some v =>
        cases hh : hit o p j <;> simp

theorem segmentYield_spec (a b start : Nat) (block : List Bool) :
    (segmentYield a b start block).Pairwise (· < ·) ∧
    ∀ m, m ∈ segmentYield a b start block ↔
      a ≤ m ∧ m < b ∧ ∃ j, block[j]? = some true ∧ m = start + 2 * j + 1 := by
  unfold segmentYield
  constructor
  · rw [List.pairwise_filterMap]
    refine (List.Pairwise.filter _ List.pairwise_lt_range).imp ?_
    intro i j hij x hx y hy
    split at hx <;> simp at hx
    split at hy <;> simp at hy
    omega
  · intro m
    simp only [List.mem_filterMap, List.mem_filter, List.mem_range, beq_iff_eq]
    constructor
    · rintro ⟨j, ⟨-, hj⟩, h⟩
      split at h <;> simp at h
      subst h
      rename_i h
      exact ⟨h.1, h.2, j, hj, rfl⟩
    · rintro ⟨h1, h2, j, hj, rfl⟩
      refine ⟨j, ⟨?_, hj⟩, by rw [if_pos ⟨h1, h2⟩]⟩
      by_contra hc
      rw [List.getElem?_eq_none (by omega)] at hj
      simp at hj

theorem segmentLoop_spec (a b bb bs : Nat) (hbs : 0 < bs) (hbb : b ≤ bb) (start : Nat)
    (heven : start % 2 = 0) (offsets : List (Nat × Nat))
    (hodd : ∀ po ∈ offsets, po.1 % 2 = 1) (hok : ∀ po ∈ offsets, OffsetOk start po) :
    ∃ r, segmentLoop a b bb bs start offsets = .ok r ∧ r.Pairwise (· < ·) ∧
      ∀ m, m ∈ r ↔ m % 2 = 1 ∧ start ≤ m ∧ a ≤ m ∧ m < b ∧
        ∀ p ∈ offsets.map Prod.fst, ¬ p ∣ m := by
  induction hd : bb - start using Nat.strong_induction_on generalizing start offsets with
  | _ d ih =>
    rw [segmentLoop]
    by_cases h : start < bb
    · rw [dif_pos ⟨h, hbs⟩]
      obtain ⟨blk, os, h1, h2, h3, h4, h5⟩ := segmentPass_spec start bs offsets hodd hok
        (List.replicate bs true) (by simp)
      rw [h1]
      dsimp only
      have hodd' : ∀ po ∈ os, po.1 % 2 = 1 := by
        intro po hpo
        have : po.1 ∈ os.map Prod.fst := List.mem_map.2 ⟨po, hpo, rfl⟩
        rw [h3] at this
        obtain ⟨q, hq, he⟩ := List.mem_map.1 this
        rw [← he]; exact hodd q hq
      obtain ⟨r, hr, hrs, hrm⟩ := ih _ (by omega) (start + 2 * bs) (by omega) os hodd' h4 rfl
      rw [hr]
      obtain ⟨hy1, hy2⟩ := segmentYield_spec a b start blk
      have hblk : ∀ m, (∃ j, blk[j]? = some true ∧ m = start + 2 * j + 1) ↔
          m % 2 = 1 ∧ start ≤ m ∧ m < start + 2 * bs ∧ ∀ p ∈ offsets.map Prod.fst, ¬ p ∣ m := by
        intro m
        constructor
        · rintro ⟨j, hj, rfl⟩
          have hjl : j < bs := by
            by_contra hc
            rw [List.getElem?_eq_none (by omega)] at hj
            simp at hj
          exact ⟨by omega, by omega, by omega, ((h5 j).1 hj).2⟩
        · rintro ⟨hm1, hm2, hm3, hm4⟩
          obtain ⟨j, rfl⟩ : ∃ j, m = start + 2 * j + 1 := ⟨(m - start) / 2, by omega⟩
          refine ⟨j, (h5 j).2 ⟨?_, hm4⟩, rfl⟩
          have hj : j < bs := by omega
          simp [hj]
      refine ⟨_, rfl, ?_, ?_⟩
      · rw [List.pairwise_append]
        refine ⟨hy1, hrs, ?_⟩
        intro x hx y hy
        obtain ⟨-, -, hx⟩ := (hy2 x).1 hx
        have := ((hblk x).1 hx).2.2.1
        have := ((hrm y).1 hy).2.1
        omega
      · intro m
        rw [List.mem_append, hy2, hrm, hblk, h3]
        constructor
        · rintro (⟨q1, q2, q3, q4, q5, q6⟩ | ⟨q1, q2, q3, q4, q5⟩)
          · exact ⟨q3, q4, q1, q2, q6⟩
          · exact ⟨q1, by omega, q3, q4, q5⟩
        · rintro ⟨q1, q2, q3, q4, q5⟩
          rcases Nat.lt_or_ge m (start + 2 * bs) with hlt | hge
          · left; exact ⟨q3, q4, q1, q2, hlt, q5⟩
          · right; exact ⟨q1, hge, q3, q4, q5⟩
    · rw [dif_neg (by omega)]
      refine ⟨[], rfl, by simp, ?_⟩
      intro m
      simp only [List.not_mem_nil, false_iff]
      rintro ⟨-, q2, -, q4, -⟩
      omega

theorem drop_one_primesUpTo (r p : Nat) :
    p ∈ (primesUpTo r).drop 1 ↔ p.Prime ∧ p ≤ r ∧ p ≠ 2 := by
  rcases Nat.lt_or_ge r 2 with h | h
  · have : primesUpTo r = [] := by
      rw [List.eq_nil_iff_forall_not_mem]
      intro q hq
      obtain ⟨h1, h2⟩ := mem_primesUpTo.1 hq
      have := h1.two_le; omega
    rw [this]
    simp only [List.drop_nil, List.not_mem_nil, false_iff]
    rintro ⟨h1, h2, -⟩
    have := h1.two_le; omega
  · have hmem : ∀ q, q ∈ primesUpTo r ↔ q.Prime ∧ q ≤ r := fun q => mem_primesUpTo
    have hs := primesUpTo_sorted r
    cases hL : primesUpTo r with
    | nil => rw [hL] at hmem; simpa using (hmem 2).2 ⟨Nat.prime_two, h⟩
    | cons x xs =>
      rw [hL] at hmem hs
      rw [List.pairwise_cons] at hs
      have hx : x = 2 := by
        have h1 := ((hmem x).1 (by simp)).1.two_le
        have h2 := (hmem 2).2 ⟨Nat.prime_two, h⟩
        rcases List.mem_cons.1 h2 with h3 | h3
        · exact h3.symm
        · have := hs.1 2 h3; omega
      subst hx
      simp only [List.drop_succ_cons, List.drop_zero]
      constructor
      · intro hp
        obtain ⟨h1, h2⟩ := (hmem p).1 (by simp [hp])
        have := hs.1 p hp
        exact ⟨h1, h2, by omega⟩
      · rintro ⟨h1, h2, h3⟩
        rcases List.mem_cons.1 ((hmem p).2 ⟨h1, h2⟩) with h4 | h4
        · exact absurd h4 h3
        · exact h4

theorem sieveInterval_spec (a b r : Nat) (hab : a < b) (hra : r < a) (hr : 0 < r)
    (hb : b < (r + 1) * (r + 1)) :
    ∃ L, sieveInterval a b r ((primesUpTo r).drop 1) = .ok L ∧ L.Pairwise (· < ·) ∧
      ∀ p, p ∈ L ↔ p.Prime ∧ p ≠ 2 ∧ a ≤ p ∧ p < b := by
  unfold sieveInterval
  dsimp only
  have hps : ∀ p ∈ (primesUpTo r).drop 1, p % 2 = 1 := by
    intro p hp
    obtain ⟨h1, -, h3⟩ := (drop_one_primesUpTo r p).1 hp
    exact h1.eq_two_or_odd.resolve_left h3
  rw [if_neg (by omega)]
  obtain ⟨L, hL, hs, hm⟩ := segmentLoop_spec a b (b + b % 2)
    (min ((b + b % 2 - (a - a % 2)) / 2) (8 * r)) (by omega) (by omega) (a - a % 2) (by omega)
    (((primesUpTo r).drop 1).map (fun p =>
      (p, (((-(((a - a % 2 : Nat) : Int) + 1 + p)).fdiv 2).fmod p).toNat)))
    (by
      intro po hpo
      obtain ⟨p, hp, rfl⟩ := List.mem_map.1 hpo
      exact hps p hp)
    (by
      intro po hpo
      obtain ⟨p, hp, rfl⟩ := List.mem_map.1 hpo
      have hp2 := hps p hp
      obtain ⟨h1, h2⟩ := fmod_toNat_spec ((-(((a - a % 2 : Nat) : Int) + 1 + p)).fdiv 2) (p := p)
        (by omega)
      refine ⟨h1, ?_⟩
      dsimp only
      generalize haa : a - a % 2 = aa at *
      have haa2 : aa % 2 = 0 := by omega
      have hdiv : 2 * ((-((aa : Int) + 1 + p)).fdiv 2) = -((aa : Int) + 1 + p) := by
        rw [Int.fdiv_eq_ediv_of_nonneg _ (by omega)]
        omega
      generalize (-((aa : Int) + 1 + p)).fdiv 2 = x at *
      have : ((aa : Int)) + 2 * ((x.fmod p).toNat : Int) + 1 =
          2 * (((x.fmod p).toNat : Int) - x) + -(p : Int) := by linarith
      rw [this]
      exact dvd_add (h2.mul_left 2) (dvd_neg.2 (dvd_refl _)))
  refine ⟨L, hL, hs, fun m => ?_⟩
  rw [hm]
  simp only [List.map_map]
  have hid : (Prod.fst ∘ fun p : Nat =>
      (p, (((-(((a - a % 2 : Nat) : Int) + 1 + p)).fdiv 2).fmod p).toNat)) = id := rfl
  rw [hid, List.map_id]
  constructor
  · rintro ⟨h1, h2, h3, h4, h5⟩
    refine ⟨?_, by rintro rfl; omega, h3, h4⟩
    by_contra hnp
    have hmf := Nat.minFac_prime (n := m) (by omega)
    have hsq := Nat.minFac_sq_le_self (by omega) hnp
    have hle : m.minFac ≤ r := by
      by_contra hc
      have : (r + 1) * (r + 1) ≤ m.minFac * m.minFac := Nat.mul_le_mul (by omega) (by omega)
      rw [sq] at hsq
      omega
    refine h5 m.minFac ((drop_one_primesUpTo r _).2 ⟨hmf, hle, ?_⟩) (Nat.minFac_dvd m)
    intro h
    have := Nat.minFac_dvd m
    rw [h] at this
    omega
  · rintro ⟨h1, h2, h3, h4⟩
    refine ⟨h1.eq_two_or_odd.resolve_left h2, by omega, h3, h4, ?_⟩
    intro p hp hd
    obtain ⟨q1, q2, -⟩ := (drop_one_primesUpTo r p).1 hp
    have := (Nat.prime_dvd_prime_iff_eq q1 h1).1 hd
    omega

theorem mem_drop_bisectLeft {T : List Nat} (hs : T.Pairwise (· < ·)) (n p : Nat) :
    p ∈ T.drop (bisectLeft T n) ↔ p ∈ T ∧ n ≤ p := by
  induction T with
  | nil => simp
  | cons a T ih =>
    rw [List.pairwise_cons] at hs
    unfold bisectLeft at ih ⊢
    rw [List.takeWhile_cons]
    by_cases h : a < n
    · simp only [h, decide_true, if_true, List.length_cons, List.drop_succ_cons]
      rw [ih hs.2, List.mem_cons]
      constructor
      · rintro ⟨h1, h2⟩; exact ⟨.inr h1, h2⟩
      · rintro ⟨rfl | h1, h2⟩
        · omega
        · exact ⟨h1, h2⟩
    · simp only [h, decide_false, Bool.false_eq_true, if_false, List.length_nil, List.drop_zero]
      constructor
      · intro hp
        refine ⟨hp, ?_⟩
        rcases List.mem_cons.1 hp with rfl | hp
        · omega
        · have := hs.1 p hp; omega
      · exact fun h => h.1

theorem mem_drop_bisectRight {T : List Nat} (hs : T.Pairwise (· < ·)) (n : Int) (p : Nat) :
    p ∈ T.drop (bisectRight T n) ↔ p ∈ T ∧ n < p := by
  induction T with
  | nil => simp
  | cons a T ih =>
    rw [List.pairwise_cons] at hs
    unfold bisectRight at ih ⊢
    rw [List.takeWhile_cons]
    by_cases h : (a : Int) ≤ n
    · simp only [h, decide_true, if_true, List.length_cons, List.drop_succ_cons]
      rw [ih hs.2, List.mem_cons]
      constructor
      · rintro ⟨h1, h2⟩; exact ⟨.inr h1, h2⟩
      · rintro ⟨rfl | h1, h2⟩
        · omega
        · exact ⟨h1, h2⟩
    · simp only [h, decide_false, Bool.false_eq_true, if_false, List.length_nil, List.drop_zero]
      constructor
      · intro hp
        refine ⟨hp, ?_⟩
        rcases List.mem_cons.1 hp with rfl | hp
        · omega
        · have := hs.1 p hp; omega
      · exact fun h => h.1

/-- C80, small bounds: for `b <= 10^7` the generator yields, in order, the primes of the *closed*
interval `[a, b]`. -/
theorem C80_prime_range_small (T : List Nat) (hT : IsPrimeTable T) (sqrt : Nat → Nat) (a b : Int)
    (hb : b ≤ 10 ^ 7) :
    ∃ L, primeRange T sqrt a (some b) = .ok L ∧ L.Pairwise (· < ·) ∧
      ∀ p : Nat, p ∈ L ↔ p.Prime ∧ a ≤ p ∧ (p : Int) ≤ b := by
  unfold primeRange primeRangeBody
  dsimp only
  rw [if_pos hb, C18_primes T hT]
  refine ⟨_, rfl, (primesUpTo_sorted _).sublist (List.drop_sublist _ _), fun p => ?_⟩
  rw [mem_drop_bisectLeft (primesUpTo_sorted _), mem_primesUpTo]
  constructor
  · rintro ⟨⟨h1, h2⟩, h3⟩
    have := h1.two_le
    split at h3 <;> exact ⟨h1, by omega, by omega⟩
  · rintro ⟨h1, h2, h3⟩
    have := h1.two_le
    refine ⟨⟨h1, by omega⟩, ?_⟩
    split <;> omega

/-- C80, large bounds: for `b > 10^7` and a float square root `r` with `b < (r+1)^2`, `r < b`, the
generator yields in order the primes of `[a, b)` when `a > r`, and the primes of the *open* interval
`(a, b)` when `2 <= a <= r`. -/
theorem C80_prime_range_large (T : List Nat) (hT : IsPrimeTable T) (sqrt : Nat → Nat) (a b : Int)
    (hb : 10 ^ 7 < b) (hab : a < b) (r : Nat) (hr : sqrt b.toNat = r) (h1 : b < (r + 1) * (r + 1))
    (h2 : r + 1 < b) :
    ∃ L, primeRange T sqrt a (some b) = .ok L ∧ L.Pairwise (· < ·) ∧
      ∀ p : Nat, p ∈ L ↔ p.Prime ∧ (if a ≤ r then max a 2 < p else a ≤ p) ∧ (p : Int) < b := by
  obtain ⟨B, rfl⟩ : ∃ B : Nat, b = B := ⟨b.toNat, by omega⟩
  have hr3 : 3 ≤ r := by
    by_contra hc
    have h3 : r ≤ 2 := by omega
    interval_cases r <;> omega
  have hB : B < (r + 1) * (r + 1) := by exact_mod_cast h1
  unfold primeRange primeRangeBody
  dsimp only
  rw [if_neg (by omega)]
  simp only [Int.toNat_natCast] at hr ⊢
  rw [hr, C18_primes T hT, Int.toNat_natCast]
  dsimp only
  have hle : ((if a < 2 then 2 else a) ≤ (r : Int)) ↔ a ≤ r := by split <;> omega
  by_cases har : a ≤ r
  · rw [if_pos (hle.2 har)]
    obtain ⟨L, hL, hs, hm⟩ := sieveInterval_spec (r + 1) B r (by omega) (by omega) (by omega) hB
    rw [hL]
    have hmax : (if a < 2 then 2 else a) = max a 2 := by split <;> omega
    rw [hmax]
    refine ⟨_, rfl, ?_, ?_⟩
    · rw [List.pairwise_append]
      refine ⟨(primesUpTo_sorted r).sublist (List.drop_sublist _ _), hs, ?_⟩
      intro x hx y hy
      have hx' := (mem_primesUpTo.1 ((mem_drop_bisectRight (primesUpTo_sorted r) _ x).1 hx).1).2
      have := ((hm y).1 hy).2.2.1
      omega
    · intro p
      rw [List.mem_append, mem_drop_bisectRight (primesUpTo_sorted r), mem_primesUpTo, hm,
        if_pos har]
      constructor
      · rintro (⟨⟨q1, q2⟩, q3⟩ | ⟨q1, q2, q3, q4⟩)
        · exact ⟨q1, q3, by omega⟩
        · exact ⟨q1, by omega, by omega⟩
      · rintro ⟨q1, q2, q3⟩
        by_cases hpr : p ≤ r
        · left; exact ⟨⟨q1, hpr⟩, q2⟩
        · right; exact ⟨q1, by omega, by omega, by omega⟩
  · rw [if_neg (fun h => har (hle.1 h))]
    have ha2 : ¬ a < 2 := by omega
    rw [if_neg ha2]
    obtain ⟨L, hL, hs, hm⟩ := sieveInterval_spec a.toNat B r (by omega) (by omega) (by omega) hB
    refine ⟨L, hL, hs, fun p => ?_⟩
    rw [hm, if_neg har]
    constructor
    · rintro ⟨q1, q2, q3, q4⟩; exact ⟨q1, by omega, by omega⟩
    · rintro ⟨q1, q2, q3⟩; exact ⟨q1, by omega, by omega, by omega⟩

/-- C80 as documented, "the primes in `[a, b)`", holds when neither end causes trouble: `b` is not a
prime (`b <= 10^7`), or `a` is not a prime or exceeds the square root of `b` (`b > 10^7`).  The full
statement is false, see `C80_prime_range_violation`. -/
theorem C80_prime_range_partial (T : List Nat) (hT : IsPrimeTable T) (sqrt : Nat → Nat) (a b : Int)
    (h2 : 2 ≤ a) (hab : a < b) (hsq : sqrt b.toNat = b.toNat.sqrt)
    (hgood : if b ≤ 10 ^ 7 then ¬ b.toNat.Prime else ¬ a.toNat.Prime ∨ (b.toNat.sqrt : Int) < a) :
    ∃ L, primeRange T sqrt a (some b) = .ok L ∧ L.Pairwise (· < ·) ∧
      ∀ p : Nat, p ∈ L ↔ p.Prime ∧ a ≤ p ∧ (p : Int) < b := by
  by_cases hb : b ≤ 10 ^ 7
  · rw [if_pos hb] at hgood
    obtain ⟨L, hL, hs, hm⟩ := C80_prime_range_small T hT sqrt a b hb
    refine ⟨L, hL, hs, fun p => ?_⟩
    rw [hm]
    constructor
    · rintro ⟨q1, q2, q3⟩
      refine ⟨q1, q2, lt_of_le_of_ne q3 ?_⟩
      rintro rfl
      exact hgood (by simpa using q1)
    · rintro ⟨q1, q2, q3⟩; exact ⟨q1, q2, by omega⟩
  · rw [if_neg hb] at hgood
    obtain ⟨B, rfl⟩ : ∃ B : Nat, b = B := ⟨b.toNat, by omega⟩
    simp only [Int.toNat_natCast] at hgood hsq
    have hlt : B < (B.sqrt + 1) * (B.sqrt + 1) := Nat.lt_succ_sqrt B
    have hle : B.sqrt * B.sqrt ≤ B := Nat.sqrt_le B
    have h5 : 5 ≤ B.sqrt := Nat.le_sqrt.2 (by omega)
    obtain ⟨L, hL, hs, hm⟩ := C80_prime_range_large T hT sqrt a B (by omega) hab B.sqrt hsq
      (by exact_mod_cast hlt) (by nlinarith)
    refine ⟨L, hL, hs, fun p => ?_⟩
    rw [hm]
    by_cases har : a ≤ B.sqrt
    · rw [if_pos har]
      have hnp : ¬ a.toNat.Prime := hgood.resolve_right (by omega)
      constructor
      · rintro ⟨q1, q2, q3⟩; exact ⟨q1, by omega, q3⟩
      · rintro ⟨q1, q2, q3⟩
        refine ⟨q1, ?_, q3⟩
        rcases lt_or_eq_of_le q2 with h | h
        · omega
        · exfalso
          apply hnp
          rw [h]; simpa using q1
    · rw [if_neg har]

/-- The right end point is included below the cutoff, the left one is lost above it. -/
theorem C80_prime_range_violation (sqrt : Nat → Nat) (hsq : sqrt 10000001 = 3162) :
    (∃ L, primeRange primeList sqrt 10 (some 13) = .ok L ∧ 13 ∈ L) ∧
    (∃ L, primeRange primeList sqrt 2 (some 10000001) = .ok L ∧ 2 ∉ L) ∧
    (∃ L, primeRange primeList sqrt 1 none = .ok L ∧ L = [2]) := by
  refine ⟨?_, ?_, ?_⟩
  · obtain ⟨L, hL, -, hm⟩ := C80_prime_range_small primeList primeList_isPrimeTable sqrt 10 13
      (by norm_num)
    exact ⟨L, hL, (hm 13).2 ⟨by norm_num, by norm_num, by norm_num⟩⟩
  · obtain ⟨L, hL, -, hm⟩ := C80_prime_range_large primeList primeList_isPrimeTable sqrt 2 10000001
      (by norm_num) (by norm_num) 3162 hsq (by norm_num) (by norm_num)
    exact ⟨L, hL, fun h => by simpa using ((hm 2).1 h).2.1⟩
  · refine ⟨_, ?_, rfl⟩
    unfold primeRange primeRangeBody
    dsimp only
    rw [if_pos (show (1 : Int) < 2 by norm_num), if_pos (show (2 : Int) ≤ 10 ^ 7 by norm_num),
      C18_primes_real]
    decide

example : primeRange [2, 3, 5, 7] Nat.sqrt 10 (some 20) = .ok [11, 13, 17, 19] ∧
    primeRange [2, 3, 5, 7] Nat.sqrt 4 (some 7) = .ok [5, 7] := by decide +kernel
example : sieveInterval 50 90 9 [3, 5, 7] = .ok [53, 59, 61, 67, 71, 73, 79, 83, 89] := by
  decide +kernel

end Rosemary.Props
