import Verif.Model.KnapsackFloat
import Verif.Props.Knapsack

/-!
# C60: branch and bound with floating point rounding
-/

namespace Rosemary.Props
open Rosemary Knapsack

/-- `rnd` behaves like the rounding of double precision numbers: zero is kept and the relative error in the normal
range is at most `2⁻⁵²` (round to nearest even has `2⁻⁵³`). -/
def RoundsLikeDouble (rnd : ℚ → ℚ) : Prop :=
  rnd 0 = 0 ∧ ∀ x : ℚ, 1 / 2 ^ 1022 ≤ x → x ≤ 2 ^ 1023 → |rnd x - x| ≤ x / 2 ^ 52

/-- Zero or between `2⁻ᵏ` and `2ᵏ`. -/
private def Within (k : ℕ) (x : ℚ) : Prop := x = 0 ∨ (1 ≤ x * 2 ^ k ∧ x ≤ 2 ^ k)

private theorem Within.nonneg {k : ℕ} {x : ℚ} (h : Within k x) : 0 ≤ x := by
  rcases h with rfl | ⟨h, -⟩
  · exact le_refl _
  · by_contra hx
    have := mul_neg_of_neg_of_pos (not_le.1 hx) (show (0 : ℚ) < 2 ^ k by positivity)
    linarith

private theorem Within.mono {k l : ℕ} {x : ℚ} (h : Within k x) (hkl : k ≤ l) : Within l x := by
  have hx := h.nonneg
  have h2 : (2 : ℚ) ^ k ≤ 2 ^ l := pow_le_pow_right₀ (by norm_num) hkl
  rcases h with rfl | ⟨h, h'⟩
  · exact Or.inl rfl
  · exact Or.inr ⟨h.trans (mul_le_mul_of_nonneg_left h2 hx), h'.trans h2⟩

private theorem within_int {k : ℕ} {n : ℤ} (h0 : 0 ≤ n) (h : n ≤ 2 ^ k) : Within k (n : ℚ) := by
  rcases h0.eq_or_lt with rfl | h1
  · exact Or.inl (by simp)
  · refine Or.inr ⟨?_, by exact_mod_cast h⟩
    have h2 : (1 : ℚ) ≤ n := by exact_mod_cast h1
    have h3 : (1 : ℚ) ≤ 2 ^ k := one_le_pow₀ (by norm_num)
    nlinarith

private theorem small_le {k : ℕ} {n : ℤ} (h : n < 2 ^ 48) (hk : 48 ≤ k) : n ≤ 2 ^ k :=
  h.le.trans (pow_le_pow_right₀ (by norm_num) hk)

private theorem Within.add {k : ℕ} {x y : ℚ} (hx : Within k x) (hy : Within k y) : Within (k + 1) (x + y) := by
  have hx0 := hx.nonneg
  have hy0 := hy.nonneg
  have hk : (0 : ℚ) < 2 ^ k := by positivity
  rcases hx with rfl | ⟨h1, h2⟩
  · rw [zero_add]; exact hy.mono (Nat.le_succ k)
  · rcases hy with rfl | ⟨h3, h4⟩
    · rw [add_zero]; exact Within.mono (Or.inr ⟨h1, h2⟩) (Nat.le_succ k)
    · refine Or.inr ⟨?_, ?_⟩
      · rw [pow_succ]; nlinarith
      · rw [pow_succ]; linarith

private theorem Within.mul {k l : ℕ} {x y : ℚ} (hx : Within k x) (hy : Within l y) : Within (k + l) (x * y) := by
  have hx0 := hx.nonneg
  have hy0 := hy.nonneg
  rcases hx with rfl | ⟨h1, h2⟩
  · exact Or.inl (zero_mul _)
  · rcases hy with rfl | ⟨h3, h4⟩
    · exact Or.inl (mul_zero _)
    · refine Or.inr ⟨?_, ?_⟩
      · rw [pow_add, show x * y * (2 ^ k * 2 ^ l) = x * 2 ^ k * (y * 2 ^ l) by ring]
        exact one_le_mul_of_one_le_of_one_le h1 h3
      · rw [pow_add]
        exact mul_le_mul h2 h4 hy0 (by positivity)

private theorem Within.inv {k : ℕ} {x : ℚ} (hx : Within k x) : Within k x⁻¹ := by
  have hx0 := hx.nonneg
  rcases hx with rfl | ⟨h1, h2⟩
  · exact Or.inl inv_zero
  · have hp : 0 < x := lt_of_le_of_ne hx0 (by rintro rfl; norm_num at h1)
    refine Or.inr ⟨?_, ?_⟩
    · rw [inv_mul_eq_div, le_div_iff₀ hp]; linarith
    · rw [inv_le_iff_one_le_mul₀ hp]; linarith

private theorem Within.rnd {r : ℚ → ℚ} (hr : RoundsLikeDouble r) {k : ℕ} (hk : k ≤ 1022) {x : ℚ} (hx : Within k x) :
    Within (k + 1) (r x) ∧ x * (1 - 1 / 2 ^ 52) ≤ r x ∧ r x ≤ x * (1 + 1 / 2 ^ 52) := by
  have hx0 := hx.nonneg
  have h2 : (2 : ℚ) ^ k ≤ 2 ^ 1022 := pow_le_pow_right₀ (by norm_num) hk
  rcases hx with rfl | ⟨h1, h3⟩
  · rw [hr.1]; exact ⟨Or.inl rfl, by simp, by simp⟩
  · have h4 := hr.2 x (by
      rw [div_le_iff₀ (by positivity)]
      exact h1.trans (mul_le_mul_of_nonneg_left h2 hx0)) (by
      refine h3.trans (h2.trans ?_)
      exact pow_le_pow_right₀ (by norm_num) (by norm_num))
    rw [abs_le] at h4
    have e : x / 2 ^ 52 = x * (1 / 2 ^ 52) := by ring
    rw [e] at h4
    have l1 : x * (1 - 1 / 2 ^ 52) ≤ r x := by linarith
    have l2 : r x ≤ x * (1 + 1 / 2 ^ 52) := by linarith
    refine ⟨Or.inr ⟨?_, ?_⟩, l1, l2⟩
    · rw [pow_succ]
      have : x * (1 / 2) ≤ r x := le_trans (mul_le_mul_of_nonneg_left (by norm_num) hx0) l1
      have hk : (0 : ℚ) < 2 ^ k := by positivity
      have := mul_le_mul_of_nonneg_right this hk.le
      linarith
    · rw [pow_succ]
      have : r x ≤ x * 2 := l2.trans (mul_le_mul_of_nonneg_left (by norm_num) hx0)
      linarith

/-- The fractional bound with the values `u * w` in place of `v`. -/
private def greedyU : List Unit4 → ℚ → ℚ → ℚ
  | [], t, u => u * t
  | x :: rest, t, _ => if (x.w : ℚ) > t then x.u * t else x.u * x.w + greedyU rest (t - x.w) x.u

private def uval (l : List Unit4) : ℚ := (l.map fun x => x.u * (x.w : ℚ)).sum
private def uwt (l : List Unit4) : ℚ := (l.map fun x => (x.w : ℚ)).sum

private theorem greedyU_ge (rest : List Unit4) (hpos : ∀ x ∈ rest, 0 < x.w ∧ 0 ≤ x.u)
    (hsort : rest.Pairwise (fun a b => b.u ≤ a.u)) :
    ∀ (s : List Unit4), s.Sublist rest → ∀ (t U : ℚ), 0 ≤ t → 0 ≤ U → (∀ x ∈ rest, x.u ≤ U) →
      ∀ u, 0 ≤ u → uval s ≤ greedyU rest t u + U * max 0 (uwt s - t) := by
  induction rest with
  | nil =>
    intro s hs t U ht hU _ u hu
    rw [show s = [] by simpa using hs, greedyU]
    have h1 := mul_nonneg hu ht
    have h2 := mul_nonneg hU (le_max_left 0 (uwt [] - t))
    simp only [uval, List.map_nil, List.sum_nil]
    linarith
  | cons x rest ih =>
    intro s hs t U ht hU hxU u hu
    obtain ⟨hw, hxu0⟩ := hpos x List.mem_cons_self
    obtain ⟨hs1, hs2⟩ := List.pairwise_cons.1 hsort
    have hwq : (0 : ℚ) < x.w := by exact_mod_cast hw
    have hxU' := hxU x List.mem_cons_self
    have hval : ∀ s : List Unit4, s.Sublist (x :: rest) → uval s ≤ x.u * uwt s := by
      intro s hs
      induction s with
      | nil => simp [uval, uwt]
      | cons z s ihs =>
        have hz := hs.subset List.mem_cons_self
        have h1 := ihs ((List.sublist_cons_self z s).trans hs)
        have z1 : (0 : ℚ) < z.w := by exact_mod_cast (hpos z hz).1
        have z2 : z.u ≤ x.u := by
          rcases List.mem_cons.1 hz with rfl | hz
          · exact le_refl _
          · exact hs1 z hz
        have := mul_le_mul_of_nonneg_right z2 z1.le
        simp only [uval, uwt, List.map_cons, List.sum_cons] at h1 ⊢
        linarith
    rw [greedyU]
    by_cases h : (x.w : ℚ) > t
    · rw [if_pos h]
      have h1 := hval s hs
      have h2 : x.u * (uwt s - t) ≤ U * max 0 (uwt s - t) :=
        (mul_le_mul_of_nonneg_left (le_max_right 0 _) hxu0).trans
          (mul_le_mul_of_nonneg_right hxU' (le_max_left 0 _))
      linarith
    · rw [if_neg h]
      rw [not_lt] at h
      have ih' := ih (fun y hy => hpos y (List.mem_cons_of_mem _ hy)) hs2
      rcases List.sublist_cons_iff.1 hs with hs | ⟨r, rfl, hr⟩
      · have h1 := ih' s hs (t - x.w) x.u (by linarith) hxu0 hs1 x.u hxu0
        have h2 : max 0 (uwt s - (t - x.w)) ≤ max 0 (uwt s - t) + x.w := by
          rw [max_le_iff]
          constructor
          · have := le_max_left 0 (uwt s - t); linarith
          · have := le_max_right 0 (uwt s - t); linarith
        have h3 := mul_le_mul_of_nonneg_left h2 hxu0
        have h4 := mul_le_mul_of_nonneg_right hxU' (le_max_left 0 (uwt s - t))
        linarith
      · have h1 := ih' r hr (t - x.w) U (by linarith) hU (fun y hy => hxU y (List.mem_cons_of_mem _ hy)) x.u hxu0
        have e1 : uval (x :: r) = x.u * x.w + uval r := by simp [uval]
        have e2 : uwt (x :: r) - t = uwt r - (t - x.w) := by simp [uwt]; ring
        rw [e1, e2]
        linarith

/-- The computed bound against the fractional bound with the rounded quotients. -/
private theorem boundLoop_ge {r : ℚ → ℚ} (hr : RoundsLikeDouble r) (target : ℤ) (ht : target ≤ 2 ^ 300) (M : ℤ)
    (hM : M < 2 ^ 48) (rest : List Unit4)
    (hpos : ∀ x ∈ rest, 0 < x.w ∧ 0 ≤ x.v ∧ Within 603 x.u ∧ x.u * x.w ≤ (1 + 4 / 2 ^ 52) * x.v) :
    ∀ (value weight : ℤ) (u : ℚ), 0 ≤ value → 0 ≤ weight → value + val (strip rest) ≤ M → weight ≤ target → Within 603 u →
      Within 907 (boundLoop (.rounded r) target rest value weight u) ∧
      (1 - 3 / 2 ^ 52) * ((1 + 4 / 2 ^ 52) * value + greedyU rest (target - weight) u) ≤
        (1 + 4 / 2 ^ 52) * boundLoop (.rounded r) target rest value weight u := by
  have last : ∀ (value t : ℤ) (u : ℚ), 0 ≤ value → value < 2 ^ 48 → 0 ≤ t → t ≤ 2 ^ 300 → Within 603 u →
      Within 907 ((FloatOps.rounded r).bound value u t) ∧
      (1 - 3 / 2 ^ 52) * (value + u * t) ≤ (FloatOps.rounded r).bound value u t := by
    intro value t u h1 h2 h3 h4 h5
    have hu := h5.nonneg
    obtain ⟨a1, a2, -⟩ := Within.rnd hr (k := 300) (by norm_num) (within_int h3 h4)
    obtain ⟨b1, b2, -⟩ := Within.rnd hr (k := 603 + 301) (by norm_num) (h5.mul a1)
    obtain ⟨c1, c2, -⟩ := Within.rnd hr (k := 904) (by norm_num)
      (within_int h1 (small_le h2 (by norm_num)))
    obtain ⟨d1, d2, -⟩ := Within.rnd hr (k := 905 + 1) (by norm_num) (c1.add b1)
    refine ⟨d1, le_trans ?_ d2⟩
    have v0 : (0 : ℚ) ≤ value := by exact_mod_cast h1
    have t0 : (0 : ℚ) ≤ t := by exact_mod_cast h3
    have ut := mul_nonneg hu t0
    have e1 : u * (t * (1 - 1 / 2 ^ 52)) ≤ u * r t := mul_le_mul_of_nonneg_left a2 hu
    have e2 : u * t * (1 - 1 / 2 ^ 52) * (1 - 1 / 2 ^ 52) ≤ r (u * r t) := by
      refine le_trans ?_ b2
      refine mul_le_mul_of_nonneg_right ?_ (by norm_num)
      linarith
    have e3 : (value * (1 - 1 / 2 ^ 52) + u * t * (1 - 1 / 2 ^ 52) * (1 - 1 / 2 ^ 52)) * (1 - 1 / 2 ^ 52) ≤
        (r value + r (u * r t)) * (1 - 1 / 2 ^ 52) := by
      refine mul_le_mul_of_nonneg_right ?_ (by norm_num)
      linarith
    refine le_trans ?_ e3
    have f1 : (1 - 3 / 2 ^ 52) * (value : ℚ) ≤ value * ((1 - 1 / 2 ^ 52) * (1 - 1 / 2 ^ 52)) := by
      rw [mul_comm]; exact mul_le_mul_of_nonneg_left (by norm_num) v0
    have f2 : (1 - 3 / 2 ^ 52) * (u * t) ≤ u * t * ((1 - 1 / 2 ^ 52) * (1 - 1 / 2 ^ 52) * (1 - 1 / 2 ^ 52)) := by
      rw [mul_comm]; exact mul_le_mul_of_nonneg_left (by norm_num) ut
    linarith
  have relax : ∀ {value : ℤ} {B X : ℚ}, 0 ≤ X → (1 - 3 / 2 ^ 52) * (value + X) ≤ B →
      (1 - 3 / 2 ^ 52) * ((1 + 4 / 2 ^ 52) * value + X) ≤ (1 + 4 / 2 ^ 52) * B := by
    intro value B X hX h
    have h1 := mul_le_mul_of_nonneg_left h (show (0 : ℚ) ≤ 1 + 4 / 2 ^ 52 by norm_num)
    linarith
  induction rest with
  | nil =>
    intro value weight u h1 h2 h3 h4 h5
    simp only [strip, List.map_nil, val_nil, add_zero] at h3
    obtain ⟨a, b⟩ := last value (target - weight) u h1 (by omega) (by omega) (by omega) h5
    rw [boundLoop, greedyU]
    refine ⟨a, ?_⟩
    have h6 : (0 : ℚ) ≤ ((target - weight : ℤ) : ℚ) := by exact_mod_cast (show 0 ≤ target - weight by omega)
    have := relax (mul_nonneg h5.nonneg h6) b
    push_cast at this ⊢
    exact this
  | cons x rest ih =>
    intro value weight u h1 h2 h3 h4 h5
    obtain ⟨p1, p2, p3, p4⟩ := hpos x List.mem_cons_self
    have hv0 : 0 ≤ val (strip rest) := by
      have : ∀ l : List Unit4, (∀ y ∈ l, 0 ≤ y.v) → 0 ≤ val (strip l) := by
        intro l
        induction l with
        | nil => intro _; simp [strip]
        | cons y l ihl =>
          intro h
          have h7 := ihl (fun z hz => h z (List.mem_cons_of_mem _ hz))
          have h8 := h y List.mem_cons_self
          simp only [strip, List.map_cons, val_cons] at h7 ⊢
          omega
      exact this rest (fun y hy => (hpos y (List.mem_cons_of_mem _ hy)).2.1)
    have h3' : value + x.v + val (strip rest) ≤ M := by
      simp only [strip, List.map_cons, val_cons] at h3 ⊢
      omega
    rw [boundLoop, greedyU]
    by_cases h : weight + x.w > target
    · have h' : (x.w : ℚ) > target - weight := by
        have : ((weight + x.w : Int) : ℚ) > target := by exact_mod_cast h
        push_cast at this
        linarith
      rw [if_pos h, if_pos h']
      obtain ⟨a, b⟩ := last value (target - weight) x.u h1 (by omega) (by omega) (by omega) p3
      refine ⟨a, ?_⟩
      have h6 : (0 : ℚ) ≤ ((target - weight : ℤ) : ℚ) := by exact_mod_cast (show 0 ≤ target - weight by omega)
      have := relax (mul_nonneg p3.nonneg h6) b
      push_cast at this ⊢
      exact this
    · have h' : ¬ (x.w : ℚ) > target - weight := by
        have : ((weight + x.w : Int) : ℚ) ≤ target := by exact_mod_cast not_lt.1 h
        push_cast at this
        linarith
      rw [if_neg h, if_neg h']
      obtain ⟨a, b⟩ := ih (fun y hy => hpos y (List.mem_cons_of_mem _ hy)) (value + x.v) (weight + x.w) x.u (by omega)
        (by omega) h3' (by omega) p3
      refine ⟨a, le_trans ?_ b⟩
      refine mul_le_mul_of_nonneg_left ?_ (by norm_num)
      push_cast
      rw [show (target : ℚ) - (weight + x.w) = target - weight - x.w by ring]
      linarith

private theorem boundOk_rounded {r : ℚ → ℚ} (hr : RoundsLikeDouble r) (M C : ℤ) (hM : M < 2 ^ 48) (hC : C ≤ 2 ^ 300)
    (units : List Unit4)
    (hpos : ∀ x ∈ units, 0 < x.w ∧ 0 ≤ x.v ∧ Within 603 x.u ∧ x.u * x.w ≤ (1 + 4 / 2 ^ 52) * x.v ∧
      (x.v : ℚ) ≤ (1 + 4 / 2 ^ 52) * (x.u * x.w))
    (hsort : units.Pairwise (fun a b => b.u ≤ a.u)) : BoundOk (.rounded r) M C units := by
  intro rest hrest value target hv hvM ht htC b hb s hs hsw
  have hpos' := fun x hx => hpos x (hrest.subset hx)
  have hsort' := hsort.sublist hrest.sublist
  obtain ⟨s', hs', rfl⟩ := List.sublist_map_iff.1 hs
  -- the exact values against the rounded quotients
  have hle : ∀ l : List Unit4, (∀ x ∈ l, x ∈ rest) → ((val (strip l) : ℤ) : ℚ) ≤ (1 + 4 / 2 ^ 52) * uval l ∧
      ((wt (strip l) : ℤ) : ℚ) = uwt l ∧ 0 ≤ val (strip l) := by
    intro l
    induction l with
    | nil => intro _; simp [strip, uval, uwt]
    | cons y l ihl =>
      intro h
      obtain ⟨h7, h8, h9⟩ := ihl (fun z hz => h z (List.mem_cons_of_mem _ hz))
      obtain ⟨-, q2, -, -, q3⟩ := hpos' y (h y List.mem_cons_self)
      simp only [strip, List.map_cons, val_cons, wt_cons, uval, uwt, List.sum_cons] at h7 h8 h9 ⊢
      push_cast
      refine ⟨by linarith, by linarith, by omega⟩
  obtain ⟨k1, k2, k3⟩ := hle s' (fun x hx => hs'.subset hx)
  have hvs : value + val (strip s') ≤ M := by
    have : ∀ {l l' : List Unit4}, l.Sublist l' → (∀ x ∈ l', x ∈ rest) → val (strip l) ≤ val (strip l') := by
      intro l l' hl
      induction hl with
      | slnil => intro _; exact le_refl _
      | cons a _ ih2 =>
        intro h
        have h1 := ih2 (fun x hx => h x (List.mem_cons_of_mem _ hx))
        have h2 := (hpos' a (h a List.mem_cons_self)).2.1
        simp only [strip, List.map_cons, val_cons] at h1 ⊢
        omega
      | cons_cons a _ ih2 =>
        intro h
        have h1 := ih2 (fun x hx => h x (List.mem_cons_of_mem _ hx))
        simp only [strip, List.map_cons, val_cons] at h1 ⊢
        omega
    have := this hs' (fun x hx => hx)
    omega
  change wt (strip s') ≤ target at hsw
  change value + val (strip s') ≤ b
  have key : Within 907 (optimisticBound (.rounded r) rest target) ∧ (1 - 3 / 2 ^ 52) * ((val (strip s') : ℤ) : ℚ) ≤
      (1 + 4 / 2 ^ 52) * ((1 + 4 / 2 ^ 52) * optimisticBound (.rounded r) rest target) := by
    rw [optimisticBound]
    by_cases h : rest = []
    · subst h
      rw [show s' = [] by simpa using hs', if_pos rfl]
      exact ⟨Or.inl rfl, by simp [strip]⟩
    · rw [if_neg h]
      obtain ⟨x, rest', rfl⟩ := List.exists_cons_of_ne_nil h
      have htq : (0 : ℚ) ≤ target := by exact_mod_cast ht
      obtain ⟨-, -, p3, -⟩ := hpos' x List.mem_cons_self
      have g := greedyU_ge (x :: rest') (fun y hy => ⟨(hpos' y hy).1, (hpos' y hy).2.2.1.nonneg⟩) hsort' s' hs' target
        x.u htq p3.nonneg (by
        intro y hy
        rcases List.mem_cons.1 hy with rfl | hy
        · exact le_refl _
        · exact (List.pairwise_cons.1 hsort').1 y hy) 0 (le_refl _)
      have hm : max 0 (uwt s' - target) = 0 := by
        rw [max_eq_left]
        have : ((wt (strip s') : Int) : ℚ) ≤ target := by exact_mod_cast hsw
        linarith
      rw [hm, mul_zero, add_zero] at g
      obtain ⟨a, c⟩ := boundLoop_ge hr target (htC.trans hC) M hM (x :: rest')
        (fun y hy => ⟨(hpos' y hy).1, (hpos' y hy).2.1, (hpos' y hy).2.2.1, (hpos' y hy).2.2.2.1⟩) 0 0 0 (le_refl _)
        (le_refl _) (by omega) ht (Or.inl rfl)
      refine ⟨a, ?_⟩
      simp only [Int.cast_zero, mul_zero, zero_add, sub_zero] at c
      have e1 : (1 - 3 / 2 ^ 52) * ((val (strip s') : ℤ) : ℚ) ≤
          (1 - 3 / 2 ^ 52) * ((1 + 4 / 2 ^ 52) * greedyU (x :: rest') target 0) :=
        mul_le_mul_of_nonneg_left (k1.trans (mul_le_mul_of_nonneg_left g (by norm_num))) (by norm_num)
      have e2 := mul_le_mul_of_nonneg_left c (show (0 : ℚ) ≤ 1 + 4 / 2 ^ 52 by norm_num)
      linarith
  obtain ⟨key1, key2⟩ := key
  generalize optimisticBound (.rounded r) rest target = B at hb key1 key2
  obtain ⟨c1, c2, -⟩ := Within.rnd hr (k := 906) (by norm_num)
    (within_int hv (show value ≤ 2 ^ 906 from small_le (by omega) (by norm_num)))
  obtain ⟨-, d2, -⟩ := Within.rnd hr (k := 907 + 1) (by norm_num) (c1.add key1)
  have hb' : r (r value + B) ≤ b := hb
  by_contra hlt
  have hlt' : b + 1 ≤ value + val (strip s') := by omega
  generalize val (strip s') = V at *
  have v0 : (0 : ℚ) ≤ value := by exact_mod_cast hv
  have V0 : (0 : ℚ) ≤ V := by exact_mod_cast k3
  have hX : (value : ℚ) + V ≤ 2 ^ 48 := by exact_mod_cast (show value + V ≤ 2 ^ 48 by omega)
  have hbq : (b : ℚ) + 1 ≤ value + V := by exact_mod_cast hlt'
  have B1 : (V : ℚ) * (1 - 12 / 2 ^ 52) ≤ B := by
    have h1 : (V : ℚ) * ((1 + 4 / 2 ^ 52) * (1 + 4 / 2 ^ 52) * (1 - 12 / 2 ^ 52)) ≤ V * (1 - 3 / 2 ^ 52) :=
      mul_le_mul_of_nonneg_left (by norm_num) V0
    have h2 : (0 : ℚ) < (1 + 4 / 2 ^ 52) * (1 + 4 / 2 ^ 52) := by norm_num
    refine le_of_mul_le_mul_left ?_ h2
    linarith
  have B2 : (value : ℚ) * (1 - 12 / 2 ^ 52) ≤ r value := le_trans (mul_le_mul_of_nonneg_left (by norm_num) v0) c2
  have B3 : (value + V : ℚ) * (1 - 12 / 2 ^ 52) * (1 - 1 / 2 ^ 52) ≤ b := by
    refine le_trans ?_ (d2.trans hb')
    refine mul_le_mul_of_nonneg_right ?_ (by norm_num)
    linarith
  have B4 : (value + V : ℚ) * (1 - 14 / 2 ^ 52) ≤ (value + V : ℚ) * ((1 - 12 / 2 ^ 52) * (1 - 1 / 2 ^ 52)) :=
    mul_le_mul_of_nonneg_left (by norm_num) (by linarith)
  have B5 : (value + V : ℚ) * (14 / 2 ^ 52) ≤ 2 ^ 48 * (14 / 2 ^ 52) := mul_le_mul_of_nonneg_right hX (by norm_num)
  have B6 : (2 : ℚ) ^ 48 * (14 / 2 ^ 52) < 1 := by norm_num
  linarith

/-- C60, `branch_and_bound_depth_first` with floating point rounding: for positive weights and nonnegative values the
result is optimal as long as the values sum up to less than `2⁴⁸` and the weights and the capacity are at most `2³⁰⁰`,
for every rounding with the accuracy of double precision numbers.  Missing: value sums between `2⁴⁸` and `2⁵³`; from
`2⁵³` on it fails, see `C60_branch_and_bound_rounding_violation`. -/
theorem C60_branch_and_bound_rounded_partial (r : ℚ → ℚ) (hr : RoundsLikeDouble r) (items : List Item) (capacity : Int)
    (hc : 0 ≤ capacity) (hc2 : capacity ≤ 2 ^ 300) (hw : ∀ x ∈ items, 0 < x.2 ∧ x.2 ≤ 2 ^ 300 ∧ 0 ≤ x.1)
    (hv : (items.map Prod.fst).sum < 2 ^ 48) :
    ∃ best, branchAndBound (.rounded r) items capacity = .ok best ∧
      Optimal items capacity (best.1, stripU best.2) := by
  obtain ⟨l, h1, h2, h3⟩ := unitCosts_spec (.rounded r) items (fun x hx => by have := hw x hx; omega) 0
  have hp : (strip (pySort l Unit4.ge)).Perm items := by
    rw [← h2]; exact (pySort_perm _ _).map _
  have hvle : ∀ l : List Item, (∀ x ∈ l, 0 ≤ x.1) → ∀ x ∈ l, x.1 ≤ (l.map Prod.fst).sum := by
    intro l
    have hnn : ∀ l : List Item, (∀ x ∈ l, 0 ≤ x.1) → 0 ≤ (l.map Prod.fst).sum := by
      intro l
      induction l with
      | nil => intro _; simp
      | cons y l ih =>
        intro h
        have h4 := h y List.mem_cons_self
        have h5 := ih (fun z hz => h z (List.mem_cons_of_mem _ hz))
        rw [List.map_cons, List.sum_cons]
        omega
    induction l with
    | nil => intro _ x hx; simp at hx
    | cons y l ih =>
      intro h x hx
      have h4 := h y List.mem_cons_self
      have h5 := hnn l (fun z hz => h z (List.mem_cons_of_mem _ hz))
      rw [List.map_cons, List.sum_cons]
      rcases List.mem_cons.1 hx with rfl | hx
      · omega
      · have := ih (fun z hz => h z (List.mem_cons_of_mem _ hz)) x hx
        omega
  have hpos : ∀ t ∈ pySort l Unit4.ge, 0 < t.w ∧ 0 ≤ t.v ∧ Within 603 t.u ∧ t.u * t.w ≤ (1 + 4 / 2 ^ 52) * t.v ∧
      (t.v : ℚ) ≤ (1 + 4 / 2 ^ 52) * (t.u * t.w) := by
    intro t ht
    rw [mem_pySort] at ht
    have hmem : (t.v, t.w) ∈ items := by rw [← h2]; exact List.mem_map.2 ⟨t, ht, rfl⟩
    obtain ⟨w1, w2, w3⟩ := hw _ hmem
    have w4 := hvle items (fun x hx => (hw x hx).2.2) _ hmem
    simp only at w1 w2 w3 w4
    obtain ⟨a1, a2, a3⟩ := Within.rnd hr (k := 300) (by norm_num)
      (within_int w3 (show t.v ≤ 2 ^ 300 from small_le (by omega) (by norm_num)))
    obtain ⟨b1, b2, b3⟩ := Within.rnd hr (k := 300) (by norm_num) (within_int w1.le w2)
    have hdiv : Within (301 + 301) (r t.v / r t.w) := by rw [div_eq_mul_inv]; exact a1.mul b1.inv
    obtain ⟨c1, c2, c3⟩ := Within.rnd hr (by norm_num) hdiv
    have hu : t.u = r (r t.v / r t.w) := h3 t ht
    rw [← hu] at c1 c2 c3
    have wq : (0 : ℚ) < t.w := by exact_mod_cast w1
    have vq : (0 : ℚ) ≤ t.v := by exact_mod_cast w3
    have rw0 : 0 < r t.w := lt_of_lt_of_le (mul_pos wq (by norm_num)) b2
    have q0 := hdiv.nonneg
    have e : r t.v / r t.w * r t.w = r t.v := by field_simp
    generalize r t.v / r t.w = q at *
    refine ⟨w1, w3, c1, ?_, ?_⟩
    · -- u w (1 - ε) ≤ u (rnd w) ≤ q (1 + ε) rnd w = (1 + ε) rnd v
      have f1 : t.u * (t.w * (1 - 1 / 2 ^ 52)) ≤ t.u * r t.w := mul_le_mul_of_nonneg_left b2 c1.nonneg
      have f2 : t.u * r t.w ≤ q * (1 + 1 / 2 ^ 52) * r t.w := mul_le_mul_of_nonneg_right c3 rw0.le
      have f3 : r t.v * (1 + 1 / 2 ^ 52) ≤ t.v * (1 + 1 / 2 ^ 52) * (1 + 1 / 2 ^ 52) :=
        mul_le_mul_of_nonneg_right a3 (by norm_num)
      have f4 : (t.v : ℚ) * ((1 + 1 / 2 ^ 52) * (1 + 1 / 2 ^ 52)) ≤ t.v * ((1 + 4 / 2 ^ 52) * (1 - 1 / 2 ^ 52)) :=
        mul_le_mul_of_nonneg_left (by norm_num) vq
      have f5 : q * (1 + 1 / 2 ^ 52) * r t.w = r t.v * (1 + 1 / 2 ^ 52) := by rw [← e]; ring
      refine le_of_mul_le_mul_right ?_ (show (0 : ℚ) < 1 - 1 / 2 ^ 52 by norm_num)
      linarith
    · have f1 : t.u * r t.w ≤ t.u * (t.w * (1 + 1 / 2 ^ 52)) := mul_le_mul_of_nonneg_left b3 c1.nonneg
      have f2 : q * (1 - 1 / 2 ^ 52) * r t.w ≤ t.u * r t.w := mul_le_mul_of_nonneg_right c2 rw0.le
      have f3 : t.v * (1 - 1 / 2 ^ 52) * (1 - 1 / 2 ^ 52) ≤ r t.v * (1 - 1 / 2 ^ 52) :=
        mul_le_mul_of_nonneg_right a2 (by norm_num)
      have f5 : q * (1 - 1 / 2 ^ 52) * r t.w = r t.v * (1 - 1 / 2 ^ 52) := by rw [← e]; ring
      have f6 : (t.v : ℚ) * ((1 - 1 / 2 ^ 52) * (1 - 1 / 2 ^ 52)) ≤ t.u * t.w * (1 + 1 / 2 ^ 52) := by linarith
      have f7 : t.u * t.w * (1 + 1 / 2 ^ 52) ≤
          t.u * t.w * ((1 + 4 / 2 ^ 52) * ((1 - 1 / 2 ^ 52) * (1 - 1 / 2 ^ 52))) :=
        mul_le_mul_of_nonneg_left (by norm_num) (mul_nonneg c1.nonneg wq.le)
      refine le_of_mul_le_mul_right ?_ (show (0 : ℚ) < (1 - 1 / 2 ^ 52) * (1 - 1 / 2 ^ 52) by norm_num)
      linarith
  obtain ⟨best, e1, e2, e3, e4⟩ := C60_branch_and_bound_feasible (.rounded r) items capacity hc (fun x hx => by
    have := hw x hx; omega)
  refine ⟨best, e1, e2, e3, e4, ?_⟩
  intro s hs hsw
  rw [branchAndBound, h1] at e1
  injection e1 with e1
  have htot : val (strip (pySort l Unit4.ge)) < 2 ^ 48 := by
    rw [val_perm hp]; exact hv
  obtain ⟨-, c2⟩ := bnb_complete (.rounded r) _ capacity (pySort l Unit4.ge)
    (fun t ht => ⟨(hpos t ht).1.le, (hpos t ht).2.1⟩)
    (boundOk_rounded hr _ capacity htot hc2 _ hpos ((pairwise_pySort ge_trans ge_total l).imp ge_u)) [] (0, [])
    (by simp) (by simp [stripU])
  simp only [stripU, List.map_nil, val_nil, wt_nil, Int.zero_add] at c2
  rw [e1] at c2
  obtain ⟨s', hs1, hs2⟩ := List.exists_perm_sublist hs hp.symm
  have := c2 s' hs2 (by rw [wt_perm hs1]; exact hsw)
  rw [val_perm hs1] at this
  exact this

/-- For example a rounding that always gives a little more. -/
example : RoundsLikeDouble (fun x => x * (1 + 1 / 2 ^ 53)) ∧
    ∃ best, branchAndBound (.rounded fun x => x * (1 + 1 / 2 ^ 53)) [(4, 3), (3, 2), (5, 4)] 6 = .ok best ∧
      Optimal [(4, 3), (3, 2), (5, 4)] 6 (best.1, stripU best.2) := by
  have h : RoundsLikeDouble (fun x => x * (1 + 1 / 2 ^ 53)) := by
    refine ⟨by norm_num, ?_⟩
    intro x hx _
    have hx0 : 0 ≤ x := le_trans (div_nonneg zero_le_one (pow_nonneg zero_le_two _)) hx
    dsimp only
    rw [show x * (1 + 1 / 2 ^ 53) - x = x * (1 / 2 ^ 53) by ring, abs_of_nonneg (mul_nonneg hx0 (by norm_num)),
      show x / 2 ^ 52 = x * (1 / 2 ^ 52) by ring]
    exact mul_le_mul_of_nonneg_left (by norm_num) hx0
  refine ⟨h, C60_branch_and_bound_rounded_partial _ h _ 6 (by norm_num) ?_ ?_ (by norm_num)⟩
  · exact le_trans (b := 2 ^ 48) (by norm_num) (pow_le_pow_right₀ (by norm_num) (by norm_num))
  · have hp : (4 : ℤ) ≤ 2 ^ 300 := le_trans (b := 2 ^ 48) (by norm_num) (pow_le_pow_right₀ (by norm_num) (by norm_num))
    intro x hx
    simp only [List.mem_cons, List.not_mem_nil, or_false] at hx
    rcases hx with rfl | rfl | rfl
    · exact ⟨by norm_num, le_trans (by norm_num) hp, by norm_num⟩
    · exact ⟨by norm_num, le_trans (by norm_num) hp, by norm_num⟩
    · exact ⟨by norm_num, le_trans (by norm_num) hp, by norm_num⟩

/-- C60: from `2⁵³` on rounding can lose the optimum.  With any rounding that keeps the integers up to `2⁵³` and the
even ones up to `2⁵⁴` and rounds the tie `2⁵³ + 1` to the even neighbour, as double precision does, the result for the
items `(2⁵³, 1)` and `(2⁵³ + 1, 2)` and capacity 2 is `2⁵³`, although the second item alone fits and is worth more. -/
theorem C60_branch_and_bound_rounding_violation (r : ℚ → ℚ) (h1 : ∀ n : ℕ, n ≤ 2 ^ 53 → r n = n)
    (h2 : ∀ n : ℕ, n ≤ 2 ^ 53 → r (2 * n) = 2 * n) (h3 : r (2 ^ 53 + 1) = 2 ^ 53) :
    branchAndBound (.rounded r) [(2 ^ 53, 1), (2 ^ 53 + 1, 2)] 2 = .ok (2 ^ 53, [(2 ^ 53, 1, 0)]) ∧
      [(2 ^ 53 + 1, 2)].Sublist [((2 : ℤ) ^ 53, (1 : ℤ)), (2 ^ 53 + 1, 2)] ∧ wt [(2 ^ 53 + 1, 2)] ≤ 2 ∧
      2 ^ 53 < val [(2 ^ 53 + 1, 2)] := by
  refine ⟨?_, by decide +kernel, by decide +kernel, by decide +kernel⟩
  have r0 : r 0 = 0 := by simpa using h1 0 (by norm_num)
  have r1 : r 1 = 1 := by simpa using h1 1 (by norm_num)
  have r2 : r 2 = 2 := by simpa using h1 2 (by norm_num)
  have rA : r 9007199254740992 = 9007199254740992 := by
    have := h1 (2 ^ 53) (le_refl _); norm_num at this; exact this
  have rB : r 4503599627370496 = 4503599627370496 := by
    have := h1 (2 ^ 52) (by norm_num); norm_num at this; exact this
  have rC : r 13510798882111488 = 13510798882111488 := by
    have := h2 6755399441055744 (by norm_num); norm_num at this; exact this
  have rD : r 9007199254740993 = 9007199254740992 := by norm_num at h3; exact h3
  have hu : unitCosts (.rounded r) 0 [(2 ^ 53, 1), (2 ^ 53 + 1, 2)] =
      .ok [⟨9007199254740992, 9007199254740992, 1, 0⟩, ⟨4503599627370496, 9007199254740993, 2, 1⟩] := by
    have e1 : r (r ((2 ^ 53 : ℤ) : ℚ) / r ((1 : ℤ) : ℚ)) = 9007199254740992 := by
      norm_num [r1, rA]
    have e2 : r (r ((2 ^ 53 + 1 : ℤ) : ℚ) / r ((2 : ℤ) : ℚ)) = 4503599627370496 := by
      norm_num [r2, rB, rD]
    simp only [unitCosts, FloatOps.rounded, e1, e2]
    norm_num
  rw [branchAndBound, hu]
  have hs : pySort [(⟨9007199254740992, 9007199254740992, 1, 0⟩ : Unit4), ⟨4503599627370496, 9007199254740993, 2, 1⟩]
      Unit4.ge = [⟨9007199254740992, 9007199254740992, 1, 0⟩, ⟨4503599627370496, 9007199254740993, 2, 1⟩] := by
    decide +kernel
  dsimp only
  rw [hs]
  norm_num [bnb, optimisticBound, boundLoop, FloatOps.rounded, r0, r1, r2, rA, rB, rC, rD]
  rw [if_neg (by simp), rC]
  norm_num

end Rosemary.Props
