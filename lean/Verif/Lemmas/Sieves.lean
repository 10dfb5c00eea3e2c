import Verif.Model.Sieves
import Verif.Lemmas.Core
import Verif.Lemmas.Primality
import Verif.Spec.Primes
import Mathlib.Data.Nat.Prime.Basic
import Mathlib.Order.Monotone.Basic
import Mathlib.Tactic.Ring
import Mathlib.Tactic.Linarith

/-!
# Lemmas about the sieves

A sieve with index map `w` (position `i` stands for the number `w i`) is correct when the closed
divisor condition `IndexMap` holds and one step removes exactly the multiples of `w i` that are at
least its square.
-/

namespace Rosemary.Sieves

open Rosemary.Core Rosemary.Spec

theorem mem_primesUpTo {n p : Nat} : p ∈ primesUpTo n ↔ p.Prime ∧ p ≤ n := by
  simp [primesUpTo, Nat.lt_succ_iff, and_comm]

theorem primesUpTo_sorted (n : Nat) : (primesUpTo n).Pairwise (· < ·) :=
  List.Pairwise.filter _ List.pairwise_lt_range

theorem sorted_ext {l₁ l₂ : List Nat} (h₁ : l₁.Pairwise (· < ·)) (h₂ : l₂.Pairwise (· < ·))
    (h : ∀ x, x ∈ l₁ ↔ x ∈ l₂) : l₁ = l₂ := by
  have n₁ : l₁.Nodup := h₁.imp (fun h => Nat.ne_of_lt h)
  have n₂ : l₂.Nodup := h₂.imp (fun h => Nat.ne_of_lt h)
  have hp : l₁.Perm l₂ := (List.perm_ext_iff_of_nodup n₁ n₂).2 h
  exact hp.eq_of_pairwise (fun a b _ _ h1 h2 => absurd h1 (by omega)) h₁ h₂

theorem mem_pyRange {a b i : Nat} : i ∈ pyRange a b ↔ a ≤ i ∧ i < b := by
  simp only [pyRange, List.mem_range'_1]
  omega

theorem pyRange_self (a : Nat) : pyRange a a = [] := by simp [pyRange]

theorem pyRange_cons {a b : Nat} (h : a < b) : pyRange a b = a :: pyRange (a + 1) b := by
  obtain ⟨c, rfl⟩ : ∃ c, b = a + c + 1 := ⟨b - a - 1, by omega⟩
  simp only [pyRange]
  rw [show a + c + 1 - a = c + 1 by omega, List.range'_succ, show a + c + 1 - (a + 1) = c by omega]

theorem pyRange_sorted (a b : Nat) : (pyRange a b).Pairwise (· < ·) := List.pairwise_lt_range'

/-! ## Slices -/

theorem hit_iff {start step j : Nat} :
    hit start step j = true ↔ start ≤ j ∧ step ∣ j - start := by
  simp [hit, Nat.dvd_iff_mod_eq_zero]

theorem ceilCount_pos {m a k : Nat} (hk : 0 < k) (h : a < m) :
    (ceilCount m a k).toNat = sliceLen m a k ∧ sliceLen m a k ≠ 0 := by
  obtain ⟨d, rfl⟩ : ∃ d, m = a + d + 1 := ⟨m - a - 1, by omega⟩
  have e1 : (((a + d + 1 : Nat) : Int) - (a : Int)) = ((d + 1 : Nat) : Int) := by push_cast; ring
  have e2 : sliceLen (a + d + 1) a k = d / k + 1 := by
    unfold sliceLen
    rw [show a + d + 1 - a + k - 1 = d + k by omega, Nat.add_div_right _ hk]
  refine ⟨?_, by rw [e2]; exact Nat.succ_ne_zero _⟩
  unfold ceilCount
  rw [e1, e2, Int.fdiv_eq_ediv_of_nonneg _ (by omega), Int.fmod_eq_emod_of_nonneg _ (by omega)]
  norm_cast
  by_cases hd : (d + 1) % k = 0
  · rw [if_neg (by omega)]
    have h1 : k * ((d + 1) / k) = d + 1 := Nat.mul_div_cancel' (Nat.dvd_of_mod_eq_zero hd)
    have h2 : (d + 1) / k = d / k + 1 := by
      rw [Nat.succ_div_of_dvd (Nat.dvd_of_mod_eq_zero hd)]
    rw [h2]; norm_cast
  · rw [if_pos (by omega)]
    have h2 : (d + 1) / k = d / k := by
      rw [Nat.succ_div_of_not_dvd (fun h => hd (Nat.mod_eq_zero_of_dvd h))]
    rw [h2]; norm_cast

theorem ceilCount_nonpos {m a k : Nat} (hk : 0 < k) (h : m ≤ a) : (ceilCount m a k).toNat = 0 := by
  obtain ⟨d, rfl⟩ : ∃ d, a = m + d := ⟨a - m, by omega⟩
  have e1 : (m : Int) - ((m + d : Nat) : Int) = -(d : Int) := by push_cast; ring
  unfold ceilCount
  rw [e1, Int.fdiv_eq_ediv_of_nonneg _ (by omega), Int.fmod_eq_emod_of_nonneg _ (by omega)]
  have h1 := Int.emod_add_mul_ediv (-(d : Int)) k
  have h2 := Int.emod_nonneg (-(d : Int)) (b := k) (by omega)
  have hq : (-(d : Int)) / k ≤ 0 := Int.ediv_nonpos_of_nonpos_of_neg (by omega) (by omega)
  split
  · have hne : (-(d : Int)) / k ≠ 0 := by
      intro h0
      rw [h0, mul_zero, add_zero] at h1
      omega
    omega
  · omega

theorem sliceLen_zero {m a k : Nat} (hk : 0 < k) (h : m ≤ a) : sliceLen m a k = 0 := by
  unfold sliceLen
  rw [Nat.sub_eq_zero_of_le h]
  exact Nat.div_eq_of_lt (by omega)

/-- The block with the slice `[start::step]` cleared. -/
def cleared (block : List Bool) (start step : Nat) : List Bool :=
  block.mapIdx (fun j v => if hit start step j then false else v)

theorem length_cleared (block : List Bool) (start step : Nat) :
    (cleared block start step).length = block.length := by simp [cleared]

theorem cleared_get (block : List Bool) (start step j : Nat) :
    (cleared block start step)[j]? = (block[j]?).map (fun v => if hit start step j then false else v) := by
  simp [cleared]

theorem cleared_of_le {block : List Bool} {start step : Nat} (h : block.length ≤ start) :
    cleared block start step = block := by
  apply List.ext_getElem?
  intro j
  rw [cleared_get]
  by_cases hj : j < block.length
  · have : hit start step j = false := by
      rw [← Bool.not_eq_true, hit_iff]; omega
    simp [this]
  · simp [List.getElem?_eq_none (by omega : block.length ≤ j)]

theorem sliceZero_ceil {block : List Bool} {m start step : Nat} (hm : block.length = m)
    (hk : 0 < step) :
    sliceZero block start step (ceilCount m start step) = .ok (cleared block start step) := by
  unfold sliceZero
  by_cases h : start < m
  · obtain ⟨h1, h2⟩ := ceilCount_pos hk h
    rw [if_neg (by omega), if_pos (by rw [hm, h1])]
    rfl
  · rw [if_pos (ceilCount_nonpos hk (by omega)), cleared_of_le (by omega)]
    congr 1
    have : block.zipIdx.filter (fun x => !hit start step x.2) = block.zipIdx := by
      rw [List.filter_eq_self]
      rintro ⟨v, j⟩ hx
      have hj : j < block.length := by
        have := List.mem_zipIdx hx
        simpa using this.2.1
      have : hit start step j = false := by
        rw [← Bool.not_eq_true, hit_iff]; omega
      simp [this]
    rw [this]
    exact List.zipIdx_map_fst _ _

theorem listSliceZero_ceil {block : List Bool} {m start step : Nat} (hm : block.length = m)
    (hk : 0 < step) :
    listSliceZero block start step (ceilCount m start step) = .ok (cleared block start step) := by
  unfold listSliceZero
  by_cases h : start < m
  · rw [if_pos (by rw [hm, (ceilCount_pos hk h).1])]
    rfl
  · rw [if_pos (by rw [hm, ceilCount_nonpos hk (by omega), sliceLen_zero hk (by omega)])]
    rfl

/-! ## The generic sieve -/

/-- Position `i` of the block stands for the number `w i`. -/
structure IndexMap (w : Nat → Nat) : Prop where
  zero : w 0 = 1
  mono : StrictMono w
  closed : ∀ j d, d ∣ w j → ∃ i, w i = d

/-- The block after all primes below `B` have been processed. -/
structure Inv (w : Nat → Nat) (m B : Nat) (block : List Bool) : Prop where
  len : block.length = m
  get : ∀ j, 0 < j → j < m →
    (block[j]? = some true ↔ ∀ p, p.Prime → p < B → p ∣ w j → w j < p * p)

theorem get_bool {block : List Bool} {m j : Nat} (hl : block.length = m) (hj : j < m) :
    block[j]? = some true ∨ block[j]? = some false := by
  have : block[j]? = some (block[j]'(by omega)) := List.getElem?_eq_getElem (by omega)
  rw [this]
  cases block[j]'(by omega) <;> simp

theorem Inv.prime {w : Nat → Nat} (hw : IndexMap w) {m i : Nat} {block : List Bool}
    (h : Inv w m (w i) block) (hi : 0 < i) (him : i < m) : block[i]? = some true ↔ (w i).Prime := by
  have h1 : 1 < w i := by rw [← hw.zero]; exact hw.mono hi
  rw [h.get i hi him]
  constructor
  · intro hall
    by_contra hnp
    have hm := Nat.minFac_prime (n := w i) (by omega)
    have hsq := Nat.minFac_sq_le_self (by omega) hnp
    have hlt : (w i).minFac < w i := (Nat.not_prime_iff_minFac_lt (by omega)).1 hnp
    have := hall _ hm hlt (Nat.minFac_dvd _)
    rw [sq] at hsq
    omega
  · intro hp p hpp hlt hd
    have := (Nat.prime_dvd_prime_iff_eq hpp hp).1 hd
    omega

/-- A prime divisor of an indexed number that is below `w (i+1)` is below `w i` or equal to it. -/
theorem IndexMap.lt_succ {w : Nat → Nat} (hw : IndexMap w) {i j p : Nat} (hd : p ∣ w j)
    (hlt : p < w (i + 1)) : p < w i ∨ p = w i := by
  obtain ⟨l, rfl⟩ := hw.closed j p hd
  have := hw.mono.lt_iff_lt.1 hlt
  rcases Nat.lt_or_eq_of_le (Nat.lt_succ_iff.1 this) with h | h
  · left; exact hw.mono h
  · right; rw [h]

theorem Inv.init {w : Nat → Nat} (hw : IndexMap w) {m : Nat} {block : List Bool}
    (hl : block.length = m) (hb : ∀ j, 0 < j → j < m → block[j]? = some true) :
    Inv w m (w 1) block := by
  refine ⟨hl, fun j h0 hj => ?_⟩
  simp only [hb j h0 hj, true_iff]
  intro p hp hlt hd
  rcases hw.lt_succ (i := 0) hd hlt with h | h
  · rw [hw.zero] at h; have := hp.two_le; omega
  · rw [hw.zero] at h; have := hp.two_le; omega

theorem Inv.skip {w : Nat → Nat} (hw : IndexMap w) {m i : Nat} {block : List Bool}
    (h : Inv w m (w i) block) (hi : 0 < i) (him : i < m) (hf : block[i]? = some false) :
    Inv w m (w (i + 1)) block := by
  refine ⟨h.len, fun j h0 hj => ?_⟩
  have hnp : ¬ (w i).Prime := by
    rw [← h.prime hw hi him, hf]; simp
  rw [h.get j h0 hj]
  constructor
  · intro hall p hp hlt hd
    rcases hw.lt_succ hd hlt with h1 | h1
    · exact hall p hp h1 hd
    · exact absurd (h1 ▸ hp) hnp
  · intro hall p hp hlt hd
    exact hall p hp (hlt.trans (hw.mono (Nat.lt_succ_self i))) hd

theorem Inv.step {w : Nat → Nat} (hw : IndexMap w) {m i : Nat} {block block' : List Bool}
    (h : Inv w m (w i) block) (hi : 0 < i) (him : i < m) (ht : block[i]? = some true)
    (hl : block'.length = m)
    (hb : ∀ j, 0 < j → j < m → (block'[j]? = some true ↔
      block[j]? = some true ∧ ¬ (w i ∣ w j ∧ w i * w i ≤ w j))) :
    Inv w m (w (i + 1)) block' := by
  refine ⟨hl, fun j h0 hj => ?_⟩
  have hp := (h.prime hw hi him).1 ht
  rw [hb j h0 hj, h.get j h0 hj]
  constructor
  · rintro ⟨hall, hn⟩ p hpp hlt hd
    rcases hw.lt_succ hd hlt with h1 | h1
    · exact hall p hpp h1 hd
    · subst h1
      by_contra hc
      exact hn ⟨hd, by omega⟩
  · intro hall
    refine ⟨fun p hpp hlt hd => hall p hpp (hlt.trans (hw.mono (Nat.lt_succ_self i))) hd, ?_⟩
    rintro ⟨hd, hle⟩
    have := hall (w i) hp (hw.mono (Nat.lt_succ_self i)) hd
    omega

theorem Inv.final {w : Nat → Nat} (hw : IndexMap w) {m B : Nat} {block : List Bool}
    (h : Inv w m B block) (hB : ∀ j, j < m → w j < B * B) (j : Nat) (h0 : 0 < j) (hj : j < m) :
    block[j]? = some (decide (w j).Prime) := by
  have h1 : 1 < w j := by rw [← hw.zero]; exact hw.mono h0
  have key : block[j]? = some true ↔ (w j).Prime := by
    rw [h.get j h0 hj]
    constructor
    · intro hall
      by_contra hnp
      have hm := Nat.minFac_prime (n := w j) (by omega)
      have hsq := Nat.minFac_sq_le_self (by omega) hnp
      rw [sq] at hsq
      have hlt : (w j).minFac < B := by
        by_contra hc
        have := Nat.mul_le_mul (Nat.le_of_not_lt hc) (Nat.le_of_not_lt hc)
        have := hB j hj
        omega
      have := hall _ hm hlt (Nat.minFac_dvd _)
      omega
    · intro hp p hpp hlt hd
      have := (Nat.prime_dvd_prime_iff_eq hpp hp).1 hd
      subst this
      nlinarith
  rcases get_bool h.len hj with ht | hf
  · simp [ht, key.1 ht]
  · have : ¬ (w j).Prime := by rw [← key, hf]; simp
    simp [hf, this]

theorem collect_spec {w : Nat → Nat} {block : List Bool} {is : List Nat}
    (h : ∀ i ∈ is, block[i]? = some (decide (w i).Prime)) :
    collect w block is = .ok ((is.map w).filter (fun p => decide p.Prime)) := by
  induction is with
  | nil => rfl
  | cons i is ih =>
    simp only [collect, h i (by simp), ih (fun i hi => h i (by simp [hi])), List.map_cons,
      List.filter_cons]

/-! ## Trial of odd numbers: eratosthenes1 -/

theorem oddMap : IndexMap (fun i => 2 * i + 1) where
  zero := rfl
  mono := by intro a b h; simp only; omega
  closed := by
    rintro j d ⟨e, he⟩
    refine ⟨d / 2, ?_⟩
    have : d % 2 = 1 := by
      rcases Nat.mod_two_eq_zero_or_one d with h | h
      · exfalso
        have : (d * e) % 2 = 0 := by rw [Nat.mul_mod, h]; simp
        omega
      · exact h
    omega

theorem hit_odd {k j : Nat} (hk : k % 2 = 1) :
    hit (k * k / 2) k j = true ↔ k ∣ 2 * j + 1 ∧ k * k ≤ 2 * j + 1 := by
  rw [hit_iff]
  have hkk : (k * k) % 2 = 1 := by rw [Nat.mul_mod, hk]
  obtain ⟨s, hs⟩ : ∃ s, k * k = 2 * s + 1 := ⟨k * k / 2, by omega⟩
  have e : k * k / 2 = s := by omega
  rw [e, and_comm]
  have hc : Nat.Coprime k 2 := by
    exact Nat.coprime_two_right.2 (Nat.odd_iff.2 hk)
  constructor
  · rintro ⟨hd, hle⟩
    refine ⟨?_, by omega⟩
    have h1 : 2 * j + 1 = 2 * (j - s) + k * k := by omega
    rw [h1]
    exact dvd_add (hd.mul_left 2) (dvd_mul_right k k)
  · rintro ⟨hd, hle⟩
    refine ⟨?_, by omega⟩
    have h1 : k ∣ 2 * (j - s) := by
      have : 2 * (j - s) = 2 * j + 1 - k * k := by omega
      rw [this]
      exact Nat.dvd_sub hd (dvd_mul_right k k)
    exact hc.dvd_of_dvd_mul_left h1

theorem era1Loop_spec {m : Nat} (s : Nat) (hs : s < m) (i : Nat) (hi : 0 < i) (his : i ≤ s + 1)
    (block : List Bool) (h : Inv (fun i => 2 * i + 1) m (2 * i + 1) block) :
    ∃ b, era1Loop m (pyRange i (s + 1)) block = .ok b ∧
      Inv (fun i => 2 * i + 1) m (2 * (s + 1) + 1) b := by
  induction hd : s + 1 - i generalizing i block with
  | zero =>
    have : i = s + 1 := by omega
    subst this
    exact ⟨block, by simp [pyRange_self, era1Loop], h⟩
  | succ d ih =>
    have hlt : i < s + 1 := by omega
    have him : i < m := by omega
    rw [pyRange_cons hlt]
    rcases get_bool h.len him with ht | hf
    · simp only [era1Loop, ht]
      rw [sliceZero_ceil h.len (by omega)]
      refine ih (i + 1) (by omega) (by omega) _ ?_ (by omega)
      refine Inv.step oddMap (i := i) h hi him ht (by rw [length_cleared, h.len]) ?_
      intro j h0 hj
      rw [cleared_get]
      have := hit_odd (k := 2 * i + 1) (j := j) (by omega)
      rw [← this]
      rcases get_bool h.len hj with hb | hb <;> simp [hb]
    · simp only [era1Loop, hf]
      exact ih (i + 1) (by omega) (by omega) _ (Inv.skip oddMap (i := i) h hi him hf) (by omega)

/-! ## The wheel modulo six: eratosthenes2 and luo -/

theorem wheel_eq (i : Nat) : wheel i = 3 * i + 1 + i % 2 := by
  have h1 : (3 * i + 1 ||| 1) % 2 = 1 := by rw [Nat.or_mod_two_eq_one]; right; rfl
  have h2 : (3 * i + 1 ||| 1) / 2 = (3 * i + 1) / 2 := by rw [Nat.or_div_two]; simp
  unfold wheel
  omega

theorem wheel_surj {d : Nat} (h2 : d % 2 = 1) (h3 : d % 3 ≠ 0) : wheel (d / 3) = d := by
  rw [wheel_eq]; omega

theorem wheel_two (i : Nat) : wheel i % 2 = 1 := by rw [wheel_eq]; omega

theorem wheel_three (i : Nat) : wheel i % 3 ≠ 0 := by rw [wheel_eq]; omega

theorem dvd_coprime_six {d c : Nat} (hd : d ∣ c) (h2 : c % 2 = 1) (h3 : c % 3 ≠ 0) :
    d % 2 = 1 ∧ d % 3 ≠ 0 := by
  constructor
  · by_contra h
    have : 2 ∣ c := (Nat.dvd_of_mod_eq_zero (by omega)).trans hd
    omega
  · intro h
    have : 3 ∣ c := (Nat.dvd_of_mod_eq_zero h).trans hd
    omega

theorem wheelMap : IndexMap wheel where
  zero := by rw [wheel_eq]
  mono := by intro a b h; rw [wheel_eq, wheel_eq]; omega
  closed := by
    intro j d hd
    obtain ⟨h1, h2⟩ := dvd_coprime_six hd (wheel_two j) (wheel_three j)
    exact ⟨d / 3, wheel_surj h1 h2⟩

theorem wheel_quot {k e d j : Nat} (hk2 : k % 6 = 1 ∧ e = 4 ∨ k % 6 = 5 ∧ e = 2)
    (hd : wheel j = k * d) (hle : k * k ≤ wheel j) :
    (∃ t, d = k + 6 * t) ∨ (∃ t, d = k + e + 6 * t) := by
  obtain ⟨hd2, hd3⟩ := dvd_coprime_six (d := d) (Dvd.intro_left k hd.symm) (wheel_two j)
    (wheel_three j)
  have hkd : k ≤ d := by
    rw [hd] at hle
    exact Nat.le_of_mul_le_mul_left hle (by omega)
  have h15 : d % 6 = 1 ∨ d % 6 = 5 := by omega
  clear hd hle
  rcases hk2 with ⟨h, rfl⟩ | ⟨h, rfl⟩
  · by_cases h6 : d % 6 = 1
    · left; exact ⟨(d - k) / 6, by omega⟩
    · right; exact ⟨(d - k - 4) / 6, by omega⟩
  · by_cases h6 : d % 6 = 5
    · left; exact ⟨(d - k) / 6, by omega⟩
    · right; exact ⟨(d - k - 2) / 6, by omega⟩

/-- The two slices of one wheel step.  `e` is the gap to the next number prime to six. -/
theorem hit_wheel {k e a b j : Nat} (hk2 : k % 6 = 1 ∧ e = 4 ∨ k % 6 = 5 ∧ e = 2)
    (ha : 3 * a + 1 = k * k) (hb : 3 * b + 2 = k * (k + e)) :
    (hit a (2 * k) j = true ∨ hit b (2 * k) j = true) ↔ k ∣ wheel j ∧ k * k ≤ wheel j := by
  rw [hit_iff, hit_iff]
  have hkk : (k * k) % 6 = 1 := by
    rcases hk2 with ⟨h, _⟩ | ⟨h, _⟩ <;> rw [Nat.mul_mod, h]
  have hke : (k * (k + e)) % 6 = 5 := by
    rcases hk2 with ⟨h, rfl⟩ | ⟨h, rfl⟩ <;> rw [Nat.mul_mod, Nat.add_mod, h]
  have ha2 : a % 2 = 0 := by omega
  have hb2 : b % 2 = 1 := by omega
  constructor
  · rintro (⟨hle, t, ht⟩ | ⟨hle, t, ht⟩)
    · have hj : j = a + 2 * (k * t) := by rw [← mul_assoc]; omega
      have hw : wheel j = k * (k + 6 * t) := by
        rw [wheel_eq, show k * (k + 6 * t) = k * k + 6 * (k * t) by ring]; omega
      rw [hw]
      exact ⟨dvd_mul_right _ _, Nat.mul_le_mul_left _ (by omega)⟩
    · have hj : j = b + 2 * (k * t) := by rw [← mul_assoc]; omega
      have hw : wheel j = k * (k + e + 6 * t) := by
        rw [wheel_eq, show k * (k + e + 6 * t) = k * (k + e) + 6 * (k * t) by ring]; omega
      rw [hw]
      exact ⟨dvd_mul_right _ _, Nat.mul_le_mul_left _ (by omega)⟩
  · rintro ⟨⟨d, hd⟩, hle⟩
    have hcase : (∃ t, d = k + 6 * t) ∨ (∃ t, d = k + e + 6 * t) :=
      wheel_quot hk2 hd hle
    rw [wheel_eq] at hd
    rcases hcase with ⟨t, rfl⟩ | ⟨t, rfl⟩
    · left
      rw [show k * (k + 6 * t) = k * k + 6 * (k * t) by ring] at hd
      have hj : j = a + 2 * (k * t) := by omega
      refine ⟨by omega, t, ?_⟩
      rw [hj]; simp [mul_assoc]
    · right
      rw [show k * (k + e + 6 * t) = k * (k + e) + 6 * (k * t) by ring] at hd
      have hj : j = b + 2 * (k * t) := by omega
      refine ⟨by omega, t, ?_⟩
      rw [hj]; simp [mul_assoc]

theorem wheel_step {m i e a b : Nat} {block : List Bool} (h : Inv wheel m (wheel i) block)
    (hi : 0 < i) (him : i < m) (ht : block[i]? = some true)
    (hk2 : wheel i % 6 = 1 ∧ e = 4 ∨ wheel i % 6 = 5 ∧ e = 2)
    (ha : 3 * a + 1 = wheel i * wheel i) (hb : 3 * b + 2 = wheel i * (wheel i + e)) :
    Inv wheel m (wheel (i + 1))
      (cleared (cleared block a (2 * wheel i)) b (2 * wheel i)) := by
  refine Inv.step wheelMap h hi him ht (by rw [length_cleared, length_cleared, h.len]) ?_
  intro j h0 hj
  rw [cleared_get, cleared_get, ← hit_wheel hk2 ha hb]
  rcases get_bool h.len hj with hc | hc <;> simp [hc]
  tauto

theorem wheel_cases (i : Nat) : wheel i % 6 = 1 ∧ i % 2 = 0 ∨ wheel i % 6 = 5 ∧ i % 2 = 1 := by
  rw [wheel_eq]; omega

theorem era2Loop_spec {m : Nat} (s : Nat) (hs : s < m) (i : Nat) (hi : 0 < i) (his : i ≤ s + 1)
    (block : List Bool) (h : Inv wheel m (wheel i) block) :
    ∃ b, era2Loop m (pyRange i (s + 1)) block = .ok b ∧ Inv wheel m (wheel (s + 1)) b := by
  induction hd : s + 1 - i generalizing i block with
  | zero =>
    have : i = s + 1 := by omega
    subst this
    exact ⟨block, by simp [pyRange_self, era2Loop], h⟩
  | succ d ih =>
    have hlt : i < s + 1 := by omega
    have him : i < m := by omega
    rw [pyRange_cons hlt]
    rcases get_bool h.len him with ht | hf
    · have hpos : 0 < wheel i := by rw [wheel_eq]; omega
      simp only [era2Loop, ht]
      rw [sliceZero_ceil h.len (by omega)]
      dsimp only
      rw [sliceZero_ceil (by rw [length_cleared, h.len]) (by omega)]
      refine ih (i + 1) (by omega) (by omega) _ ?_ (by omega)
      have hkk : (wheel i * wheel i) % 6 = 1 := by
        rcases wheel_cases i with ⟨h, _⟩ | ⟨h, _⟩ <;> rw [Nat.mul_mod, h]
      refine wheel_step (e := if i % 2 = 0 then 4 else 2) h hi him ht ?_ ?_ ?_
      · rcases wheel_cases i with ⟨h1, h2⟩ | ⟨h1, h2⟩
        · left; simp [h1, h2]
        · right; simp [h1, h2]
      · omega
      · rw [Nat.and_one_is_mod]
        rcases wheel_cases i with ⟨h1, h2⟩ | ⟨h1, h2⟩
        · have hke : (wheel i * (wheel i + 4)) % 6 = 5 := by rw [Nat.mul_mod, Nat.add_mod, h1]
          have e1 : wheel i * (wheel i + 4) = wheel i * wheel i + 4 * wheel i := by ring
          simp only [h2, if_true, mul_zero, Nat.sub_zero]
          omega
        · have hke : (wheel i * (wheel i + 2)) % 6 = 5 := by rw [Nat.mul_mod, Nat.add_mod, h1]
          have e1 : wheel i * (wheel i + 2) = wheel i * wheel i + 2 * wheel i := by ring
          simp only [h2, mul_one]
          simp only [if_neg (by omega : ¬ (1 = 0))]
          omega
    · simp only [era2Loop, hf]
      exact ih (i + 1) (by omega) (by omega) _ (Inv.skip wheelMap h hi him hf) (by omega)

/-- The state of the recurrences in `luo` before index `i`. -/
def LuoState (i a k t : Nat) : Prop :=
  (i % 2 = 1 ∧ k = 1 ∨ i % 2 = 0 ∧ k = 2) ∧ 3 * a + 1 = wheel (i - 1) * wheel (i - 1) ∧
    t = 2 * wheel (i - 1)

theorem luoState_succ {i a k t : Nat} (hi : 0 < i) (h : LuoState i a k t) :
    LuoState (i + 1) (a + 4 * (3 - k) * i) (3 - k) (t + 4 * (3 - k)) := by
  obtain ⟨h1, h2, h3⟩ := h
  obtain ⟨j, rfl⟩ : ∃ j, i = j + 1 := ⟨i - 1, by omega⟩
  simp only [LuoState, Nat.add_sub_cancel] at *
  refine ⟨by omega, ?_, ?_⟩
  · rcases h1 with ⟨ho, rfl⟩ | ⟨he, rfl⟩
    · have e1 : wheel j = 3 * j + 1 := by rw [wheel_eq]; omega
      have e2 : wheel (j + 1) = 3 * j + 5 := by rw [wheel_eq]; omega
      rw [e2]; rw [e1] at h2
      norm_num
      nlinarith
    · have e1 : wheel j = 3 * j + 2 := by rw [wheel_eq]; omega
      have e2 : wheel (j + 1) = 3 * j + 4 := by rw [wheel_eq]; omega
      rw [e2]; rw [e1] at h2
      norm_num
      nlinarith
  · rw [wheel_eq] at h3 ⊢
    omega

theorem luoLoop_spec {m : Nat} (s : Nat) (hs : s < m) (i : Nat) (hi : 0 < i) (his : i ≤ s + 1)
    (a k t : Nat) (hst : LuoState i a k t) (block : List Bool) (h : Inv wheel m (wheel i) block) :
    ∃ b, luoLoop m (pyRange i (s + 1)) a k t block = .ok b ∧ Inv wheel m (wheel (s + 1)) b := by
  induction hd : s + 1 - i generalizing i block a k t with
  | zero =>
    have : i = s + 1 := by omega
    subst this
    exact ⟨block, by simp [pyRange_self, luoLoop], h⟩
  | succ d ih =>
    have hlt : i < s + 1 := by omega
    have him : i < m := by omega
    have hst' := luoState_succ hi hst
    obtain ⟨hk, ha, ht'⟩ := hst'
    rw [Nat.add_sub_cancel] at ha ht'
    rw [pyRange_cons hlt]
    rcases get_bool h.len him with ht | hf
    · have hpos : 0 < wheel i := by rw [wheel_eq]; omega
      simp only [luoLoop, ht]
      rw [sliceZero_ceil h.len (by omega)]
      dsimp only
      rw [sliceZero_ceil (by rw [length_cleared, h.len]) (by omega)]
      refine ih (i + 1) (by omega) (by omega) _ _ _ ⟨hk, ha, ht'⟩ _ ?_ (by omega)
      rw [ht']
      refine wheel_step (e := if i % 2 = 0 then 4 else 2) h hi him ht ?_ ha ?_
      · rcases wheel_cases i with ⟨h1, h2⟩ | ⟨h1, h2⟩
        · left; simp [h1, h2]
        · right; simp [h1, h2]
      · rcases hst.1 with ⟨ho, rfl⟩ | ⟨he, rfl⟩
        · have e1 : wheel i = 3 * i + 2 := by rw [wheel_eq]; omega
          simp only [ho, if_neg (by omega : ¬ (1 = 0))]
          rw [e1] at ha ⊢
          norm_num at ha ⊢
          nlinarith
        · have e1 : wheel i = 3 * i + 1 := by rw [wheel_eq]; omega
          simp only [he, if_true]
          rw [e1] at ha ⊢
          norm_num at ha ⊢
          nlinarith
    · simp only [luoLoop, hf]
      exact ih (i + 1) (by omega) (by omega) _ _ _ ⟨hk, ha, ht'⟩ _
        (Inv.skip wheelMap h hi him hf) (by omega)

end Rosemary.Sieves
