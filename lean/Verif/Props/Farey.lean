import Verif.Model.Farey
import Verif.Props.ContinuedFractions
import Mathlib.NumberTheory.Pell

/-!
# C114: `farey(D, N)`

The function walks down the Stern–Brocot tree towards `√D`.
-/

namespace Rosemary.Props

open Rosemary.Farey Rosemary.ContinuedFractions Rosemary.Core

/-- A pair of coprime positive integers with `x² - D y² = N`. -/
def PrimitiveSolution (D N x y : ℤ) : Prop := 0 < x ∧ 0 < y ∧ IsCoprime x y ∧ x ^ 2 - D * y ^ 2 = N

private theorem above_aux {D N a b x y : ℤ} (hD : 0 < D) (hN : (0 < N ∧ N ^ 2 ≤ 4 * D) ∨ (N ≤ 0 ∧ N ^ 2 ≤ D))
    (ha : 0 < a) (hb : 0 < b) (hby : b ≤ y) (hx : 0 < x) (hs : x ^ 2 - D * y ^ 2 = N) (hd : 0 < x * b - a * y)
    (ht : 0 < a * a - D * b * b) : False := by
  have hy : 0 < y := by omega
  have key : N * b ^ 2 - y ^ 2 * (a * a - D * b * b) = (x * b - a * y) * (x * b + a * y) := by rw [← hs]; ring
  have h1 : x * b + a * y ≤ (x * b - a * y) * (x * b + a * y) := by
    have : 0 < x * b + a * y := by positivity
    nlinarith
  have h2 : 0 < y ^ 2 * (a * a - D * b * b) := by positivity
  have h3 : x * b + a * y < N * b ^ 2 := by omega
  have hb2 : 0 < b ^ 2 := by positivity
  rcases hN with ⟨hN0, hN⟩ | ⟨hN0, -⟩
  · have hax : D * b * y ≤ a * x := by
      have hx2 : D * y ^ 2 ≤ x ^ 2 := by omega
      have ha2 : D * b ^ 2 ≤ a ^ 2 := by nlinarith
      have h4 : (D * b * y) ^ 2 ≤ (a * x) ^ 2 := by
        have := mul_le_mul ha2 hx2 (by positivity) (by positivity)
        nlinarith
      exact abs_le_of_sq_le_sq' h4 (by positivity) |>.2
    have h5 : 4 * D * (b * y) ^ 2 ≤ (x * b + a * y) ^ 2 := by
      have h6 : (b * y) * (D * b * y) ≤ (b * y) * (a * x) := mul_le_mul_of_nonneg_left hax (by positivity)
      nlinarith [sq_nonneg (x * b - a * y)]
    have h7 : (x * b + a * y) ^ 2 < (N * b ^ 2) ^ 2 := by
      have : 0 < x * b + a * y := by positivity
      exact pow_lt_pow_left₀ h3 this.le (by norm_num)
    have h8 : b * b ≤ b * y := mul_le_mul_of_nonneg_left hby hb.le
    have h9 : (b * b) ^ 2 ≤ (b * y) ^ 2 := pow_le_pow_left₀ (by positivity) h8 2
    have h10 : 4 * D * (b * b) ^ 2 ≤ 4 * D * (b * y) ^ 2 := mul_le_mul_of_nonneg_left h9 (by positivity)
    have h11 : N ^ 2 * (b * b) ^ 2 ≤ 4 * D * (b * b) ^ 2 := mul_le_mul_of_nonneg_right hN (by positivity)
    nlinarith
  · have : 0 < x * b + a * y := by positivity
    have : N * b ^ 2 ≤ 0 := mul_nonpos_of_nonpos_of_nonneg hN0 hb2.le
    omega

private theorem below_aux {D N a b x y : ℤ} (hD : 0 < D) (hN : (0 < N ∧ N ^ 2 ≤ 4 * D) ∨ (N ≤ 0 ∧ N ^ 2 ≤ D))
    (ha : 0 < a) (hb : 0 < b) (hby : b ≤ y) (hx : 0 < x) (hs : x ^ 2 - D * y ^ 2 = N) (hd : x * b - a * y < 0)
    (ht : a * a - D * b * b ≤ 0) : False := by
  have hy : 0 < y := by omega
  have key : N * b ^ 2 - y ^ 2 * (a * a - D * b * b) = (x * b - a * y) * (x * b + a * y) := by rw [← hs]; ring
  have hp : 0 < x * b + a * y := by positivity
  have h1 : (x * b - a * y) * (x * b + a * y) ≤ - (x * b + a * y) := by nlinarith
  obtain ⟨s, hs'⟩ : ∃ s, s = -(a * a - D * b * b) := ⟨_, rfl⟩
  have hs0 : 0 ≤ s := by omega
  have h2 : x * b + a * y + y ^ 2 * s ≤ -N * b ^ 2 := by
    have : y ^ 2 * (a * a - D * b * b) = - (y ^ 2 * s) := by rw [hs']; ring
    rw [this] at key
    linarith
  have hb2 : 0 < b ^ 2 := by positivity
  have hys : 0 ≤ y ^ 2 * s := by positivity
  rcases hN with ⟨hN0, -⟩ | ⟨hN0, hN⟩
  · have : -N * b ^ 2 ≤ 0 := by nlinarith
    omega
  · have h3 : (-N * b) ^ 2 ≤ (a + y * s) ^ 2 := by
      have e1 : a ^ 2 + s = D * b ^ 2 := by rw [hs']; ring
      have e2 : s ≤ (y * s) ^ 2 := by
        have : s ≤ s ^ 2 := by nlinarith
        have : 1 ≤ y ^ 2 := by nlinarith
        nlinarith [mul_nonneg hs0 hs0]
      have e3 : N ^ 2 * b ^ 2 ≤ D * b ^ 2 := mul_le_mul_of_nonneg_right hN hb2.le
      have e4 : 0 ≤ a * (y * s) := by positivity
      nlinarith
    have h4 : -N * b ≤ a + y * s := (abs_le_of_sq_le_sq' h3 (by positivity)).2
    have h5 : -N * b * b ≤ -N * b * y := mul_le_mul_of_nonneg_left hby (by nlinarith)
    have h6 : (-N * b) * y ≤ (a + y * s) * y := mul_le_mul_of_nonneg_right h4 hy.le
    have : 0 < x * b := by positivity
    nlinarith

private theorem walk_spec {D N x y : ℤ} (hD : 0 < D) (hN : (0 < N ∧ N ^ 2 ≤ 4 * D) ∨ (N ≤ 0 ∧ N ^ 2 ≤ D))
    (hs : PrimitiveSolution D N x y) :
    ∀ (m : ℕ) (n1 d1 n2 d2 : ℤ), 0 ≤ n1 → 0 < d1 → 0 < n2 → 0 ≤ d2 → n2 * d1 - n1 * d2 = 1 →
      0 < x * d1 - n1 * y → 0 < n2 * y - x * d2 → (x * d1 - n1 * y) + (n2 * y - x * d2) ≤ m →
      ∃ a b, walk D N n1 d1 n2 d2 = some (a, b) ∧ a ≤ x ∧ b ≤ y := by
  obtain ⟨hx, hy, hc, he⟩ := hs
  intro m
  induction m with
  | zero => intro n1 d1 n2 d2 _ _ _ _ _ _ _ h; push_cast at h; omega
  | succ m ih =>
    intro n1 d1 n2 d2 hn1 hd1 hn2 hd2 hdet hp hq hm
    obtain ⟨p, hpe⟩ : ∃ p, p = x * d1 - n1 * y := ⟨_, rfl⟩
    obtain ⟨q, hqe⟩ : ∃ q, q = n2 * y - x * d2 := ⟨_, rfl⟩
    rw [← hpe] at hp hm
    rw [← hqe] at hq hm
    have ex : x = p * n2 + q * n1 := by
      rw [hpe, hqe]; linear_combination (-x) * hdet
    have ey : y = p * d2 + q * d1 := by
      rw [hpe, hqe]; linear_combination (-y) * hdet
    have hax : n1 + n2 ≤ x := by nlinarith
    have hby : d1 + d2 ≤ y := by nlinarith
    have hcross : x * (d1 + d2) - (n1 + n2) * y = p - q := by rw [hpe, hqe]; ring
    have hpq : p = q → p = 1 := by
      intro h
      obtain ⟨u, v, huv⟩ := hc
      have : p ∣ 1 := ⟨u * (n2 + n1) + v * (d2 + d1), by rw [← huv, ex, ey, ← h]; ring⟩
      exact Int.eq_one_of_dvd_one hp.le this
    rw [walk.eq_def]
    dsimp only
    by_cases h1 : N = (n1 + n2) * (n1 + n2) - D * (d1 + d2) * (d1 + d2)
    · rw [if_pos h1]
      exact ⟨_, _, rfl, hax, hby⟩
    · rw [if_neg h1]
      have hne : p ≠ q := by
        intro h
        apply h1
        have h3 := hpq h
        rw [← he, ex, ey, ← h, h3]
        ring
      by_cases ht : (n1 + n2) * (n1 + n2) - D * (d1 + d2) * (d1 + d2) > 0
      · rw [if_pos ht]
        have hlt : p < q := by
          by_contra hge
          exact above_aux hD hN (by omega) (by omega) hby hx he (by omega) ht
        refine ih n1 d1 (n1 + n2) (d1 + d2) hn1 hd1 (by omega) (by omega) (by linarith) (by omega) ?_ ?_
        · have : (n1 + n2) * y - x * (d1 + d2) = q - p := by linarith
          omega
        · have : (n1 + n2) * y - x * (d1 + d2) = q - p := by linarith
          push_cast at hm
          omega
      · rw [if_neg ht]
        have hlt : q < p := by
          by_contra hge
          exact below_aux (a := n1 + n2) hD hN (by omega) (by omega) hby hx he (by omega) (by omega)
        refine ih (n1 + n2) (d1 + d2) n2 d2 (by omega) (by omega) hn2 hd2 (by linarith) (by omega) (by omega) ?_
        push_cast at hm
        omega

private theorem walk_sound (D N : ℤ) (n1 d1 n2 d2 : ℤ) (r : ℤ × ℤ) (h : walk D N n1 d1 n2 d2 = some r) (hn1 : 0 ≤ n1)
    (hd1 : 0 < d1) (hn2 : 0 < n2) (hd2 : 0 ≤ d2) (hdet : n2 * d1 - n1 * d2 = 1) : PrimitiveSolution D N r.1 r.2 := by
  revert hn1 hd1 hn2 hd2 hdet
  refine walk.partial_correctness D N (motive := fun n1 d1 n2 d2 r => 0 ≤ n1 → 0 < d1 → 0 < n2 → 0 ≤ d2 →
    n2 * d1 - n1 * d2 = 1 → PrimitiveSolution D N r.1 r.2) ?_ n1 d1 n2 d2 r h
  intro f ih n1 d1 n2 d2 r hr hn1 hd1 hn2 hd2 hdet
  dsimp only at hr
  split at hr
  · rename_i he
    cases hr
    exact ⟨by dsimp only; omega, by dsimp only; omega, ⟨d1, -n1, by dsimp only; linarith⟩, by dsimp only; rw [he]; ring⟩
  · split at hr
    · exact ih _ _ _ _ _ hr hn1 hd1 (by omega) (by omega) (by linarith)
    · exact ih _ _ _ _ _ hr (by omega) (by omega) hn2 hd2 (by linarith)

/-- Whatever `farey(D, N)` returns is a solution in coprime positive integers, for all `D` and `N`. -/
theorem C114_farey_sound (D N a b : ℤ) (h : farey D N = some (a, b)) :
    0 < a ∧ 0 < b ∧ IsCoprime a b ∧ a ^ 2 - D * b ^ 2 = N :=
  walk_sound D N 0 1 1 0 (a, b) h le_rfl one_pos one_pos le_rfl (by norm_num)

/-- For `0 < N ≤ 2√D` and for `-√D ≤ N ≤ 0` the call returns the least solution in coprime positive integers if there is
one, and runs forever if there is none.  Missing: `N` of larger size, for which it can run forever although there is a
solution (`C114_farey_endless_violation`), and solutions that are not coprime, which are never found. -/
theorem C114_farey_partial (D N : ℤ) (hD : 0 < D) (hN : (0 < N ∧ N ^ 2 ≤ 4 * D) ∨ (N ≤ 0 ∧ N ^ 2 ≤ D)) :
    (∃ a b, farey D N = some (a, b) ∧ 0 < a ∧ 0 < b ∧ IsCoprime a b ∧ a ^ 2 - D * b ^ 2 = N ∧
      ∀ x y, 0 < x → 0 < y → IsCoprime x y → x ^ 2 - D * y ^ 2 = N → a ≤ x ∧ b ≤ y) ∨
    (farey D N = none ∧ ¬ ∃ x y, 0 < x ∧ 0 < y ∧ IsCoprime x y ∧ x ^ 2 - D * y ^ 2 = N) := by
  have key : ∀ x y, PrimitiveSolution D N x y → ∃ a b, farey D N = some (a, b) ∧ a ≤ x ∧ b ≤ y := fun x y h =>
    walk_spec hD hN h (x + y).toNat 0 1 1 0 le_rfl one_pos one_pos le_rfl (by norm_num) (by have := h.1; omega)
      (by have := h.2.1; omega) (by have := h.1; have := h.2.1; omega)
  rcases hf : farey D N with - | ⟨a, b⟩
  · refine Or.inr ⟨rfl, ?_⟩
    rintro ⟨x, y, h⟩
    obtain ⟨a, b, h1, -⟩ := key x y h
    rw [hf] at h1
    exact absurd h1 (by simp)
  · obtain ⟨h1, h2, h3, h4⟩ := C114_farey_sound D N a b hf
    refine Or.inl ⟨a, b, rfl, h1, h2, h3, h4, fun x y hx hy hc he => ?_⟩
    obtain ⟨a', b', h5, h6, h7⟩ := key x y ⟨hx, hy, hc, he⟩
    rw [hf] at h5
    cases h5
    exact ⟨h6, h7⟩

/-- `farey(D, 1)` returns the least positive solution of `x² - D y² = 1` for every positive `D` that is not a square. -/
theorem C114_farey_one (D : ℤ) (hD : 0 < D) (hns : ∀ k : ℤ, k ^ 2 ≠ D) :
    ∃ a b, farey D 1 = some (a, b) ∧ 0 < a ∧ 0 < b ∧ a ^ 2 - D * b ^ 2 = 1 ∧
      ∀ x y, 0 < x → 0 < y → x ^ 2 - D * y ^ 2 = 1 → a ≤ x ∧ b ≤ y := by
  have hcop : ∀ x y : ℤ, x ^ 2 - D * y ^ 2 = 1 → IsCoprime x y := fun x y h => ⟨x, -D * y, by rw [← h]; ring⟩
  rcases C114_farey_partial D 1 hD (Or.inl ⟨one_pos, by omega⟩) with ⟨a, b, h1, h2, h3, -, h4, h5⟩ | ⟨-, h⟩
  · exact ⟨a, b, h1, h2, h3, h4, fun x y hx hy he => h5 x y hx hy (hcop x y he) he⟩
  · exfalso
    obtain ⟨x, y, he, hy⟩ := Pell.exists_of_not_isSquare hD (by
      rintro ⟨k, hk⟩
      exact hns k (by rw [hk, pow_two]))
    have hx : x ≠ 0 := by
      rintro rfl
      nlinarith [sq_nonneg y]
    have he' : |x| ^ 2 - D * |y| ^ 2 = 1 := by rw [sq_abs, sq_abs]; exact he
    exact h ⟨|x|, |y|, abs_pos.2 hx, abs_pos.2 hy, hcop _ _ he', he'⟩

/-- It agrees with `pell_fundamental_solution`, also for `N = -1`, where that function raises exactly when this one runs
forever. -/
theorem C114_farey_fundamental (D : ℤ) (hD : 0 < D) (hns : ∀ k : ℤ, k ^ 2 ≠ D)
    (h : D < 4503599761588224 ∨ 2 ^ 60 < D ∨ ∀ r : ℕ, integerSqrt D = .ok r → (r : ℤ) ^ 2 ≤ D) :
    pellFundamentalSolution D = (farey D 1).map .ok ∧
      pellFundamentalSolution D (-1) = (match farey D (-1) with
        | some s => some (.ok s)
        | none => some (.error .valueError)) := by
  constructor
  · obtain ⟨x, y, h1, h2, h3, h4, h5⟩ := C39_pell_fundamental_partial D hD hns h
    obtain ⟨a, b, g1, g2, g3, g4, g5⟩ := C114_farey_one D hD hns
    obtain ⟨i1, i2⟩ := h5 a b g2 g3 g4
    obtain ⟨j1, j2⟩ := g5 x y h2 h3 h4
    rw [h1, g1, le_antisymm i1 j1, le_antisymm i2 j2]
    rfl
  · have hcop : ∀ x y : ℤ, x ^ 2 - D * y ^ 2 = -1 → IsCoprime x y := fun x y h => ⟨-x, D * y, by linear_combination -h⟩
    rcases C39_pell_negative_partial D hD hns h with ⟨x, y, h1, h2, h3, h4, h5⟩ | ⟨h1, h2⟩
    · rcases C114_farey_partial D (-1) hD (Or.inr ⟨by norm_num, by omega⟩) with ⟨a, b, g1, g2, g3, -, g4, g5⟩ | ⟨-, g⟩
      · obtain ⟨i1, i2⟩ := h5 a b g2 g3 g4
        obtain ⟨j1, j2⟩ := g5 x y h2 h3 (hcop _ _ h4) h4
        rw [h1, g1, le_antisymm i1 j1, le_antisymm i2 j2]
      · exact absurd ⟨x, y, h2, h3, hcop _ _ h4, h4⟩ g
    · rcases hf : farey D (-1) with - | ⟨a, b⟩
      · exact h1
      · exact absurd ⟨a, b, (C114_farey_sound _ _ _ _ hf).2.2.2⟩ h2

private theorem walk_bound (D N : ℤ) (hns : ∀ k : ℤ, k ^ 2 ≠ D) (hN : D < |N|) (n1 d1 n2 d2 : ℤ) (r : ℤ × ℤ)
    (h : walk D N n1 d1 n2 d2 = some r) (hd1 : 0 < d1) (hd2 : 0 ≤ d2) (hdet : n2 * d1 - n1 * d2 = 1)
    (ht1 : n1 * n1 - D * d1 * d1 < 0) (ht2 : 0 < n2 * n2 - D * d2 * d2) : False := by
  revert hd1 hd2 hdet ht1 ht2
  refine walk.partial_correctness D N (motive := fun n1 d1 n2 d2 r => 0 < d1 → 0 ≤ d2 → n2 * d1 - n1 * d2 = 1 →
    n1 * n1 - D * d1 * d1 < 0 → 0 < n2 * n2 - D * d2 * d2 → False) ?_ n1 d1 n2 d2 r h
  intro f ih n1 d1 n2 d2 r hr hd1 hd2 hdet ht1 ht2
  dsimp only at hr
  obtain ⟨a, ha⟩ : ∃ a, a = n1 + n2 := ⟨_, rfl⟩
  obtain ⟨b, hb⟩ : ∃ b, b = d1 + d2 := ⟨_, rfl⟩
  rw [← ha, ← hb] at hr
  have hb0 : 0 < b := by omega
  obtain ⟨t, ht⟩ : ∃ t, t = a * a - D * b * b := ⟨_, rfl⟩
  rw [← ht] at hr
  have ht0 : t ≠ 0 := by
    intro h0
    have h1 : b ^ 2 ∣ a ^ 2 := ⟨D, by rw [ht] at h0; linear_combination h0⟩
    rw [Int.pow_dvd_pow_iff (by norm_num)] at h1
    obtain ⟨k, hk⟩ := h1
    apply hns k
    rw [ht, hk] at h0
    have : b ^ 2 * (k ^ 2 - D) = 0 := by linear_combination h0
    rcases mul_eq_zero.1 this with h | h
    · nlinarith
    · linarith
  split at hr
  · rename_i he
    rcases lt_or_gt_of_ne ht0 with hlt | hgt
    · have e : (a * n2 - D * b * d2) ^ 2 - t * (n2 * n2 - D * d2 * d2) = D * (n2 * b - a * d2) ^ 2 := by rw [ht]; ring
      have e2 : n2 * b - a * d2 = 1 := by rw [ha, hb]; linear_combination hdet
      rw [e2] at e
      rw [he, abs_of_neg hlt] at hN
      nlinarith [sq_nonneg (a * n2 - D * b * d2)]
    · have e : (a * n1 - D * b * d1) ^ 2 - t * (n1 * n1 - D * d1 * d1) = D * (a * d1 - n1 * b) ^ 2 := by rw [ht]; ring
      have e2 : a * d1 - n1 * b = 1 := by rw [ha, hb]; linear_combination hdet
      rw [e2] at e
      rw [he, abs_of_pos hgt] at hN
      nlinarith [sq_nonneg (a * n1 - D * b * d1)]
  · split at hr
    · exact ih _ _ _ _ _ hr hd1 hb0.le (by rw [ha, hb]; linarith) ht1 (by omega)
    · exact ih _ _ _ _ _ hr hb0 hd2 (by rw [ha, hb]; linarith) (by omega) ht2

/-- If `D` is not a square then the call never returns for `|N| > D`, whether or not there is a solution. -/
theorem C114_farey_large (D N : ℤ) (hD : 0 < D) (hns : ∀ k : ℤ, k ^ 2 ≠ D) (hN : D < |N|) : farey D N = none := by
  rcases h : farey D N with - | r
  · rfl
  · exact (walk_bound D N hns hN 0 1 1 0 r h one_pos le_rfl (by norm_num) (by omega) (by omega)).elim

/-- So solutions are missed: `3² - 2·1² = 7`. -/
theorem C114_farey_endless_violation : farey 2 7 = none ∧ (3 : ℤ) ^ 2 - 2 * 1 ^ 2 = 7 ∧ IsCoprime (3 : ℤ) 1 := by
  refine ⟨C114_farey_large 2 7 (by norm_num) (fun k hk => ?_) (by norm_num), by norm_num, isCoprime_one_right⟩
  have h1 : k < 2 := by nlinarith
  have h2 : -2 < k := by nlinarith
  interval_cases k <;> omega

/-- The number `61`, whose least solution is large: it is found. -/
example : ∃ a b, farey 61 1 = some (a, b) ∧ a ^ 2 - 61 * b ^ 2 = 1 ∧ a ≤ 1766319049 ∧ b ≤ 226153980 := by
  obtain ⟨a, b, h1, -, -, h2, h3⟩ := C114_farey_one 61 (by norm_num) (fun k hk => by
    have h1 : k < 8 := by nlinarith
    have h2 : -8 < k := by nlinarith
    interval_cases k <;> omega)
  exact ⟨a, b, h1, h2, h3 _ _ (by norm_num) (by norm_num) (by norm_num)⟩

example : farey 13 (-1) = some (18, 5) := by
  rw [farey]
  repeat (rw [walk.eq_def]; norm_num)

/-- There is no solution of `x² - 3 y² = -1`. -/
example : farey 3 (-1) = none := by
  rcases C114_farey_partial 3 (-1) (by norm_num) (by norm_num) with ⟨a, b, -, -, -, -, h, -⟩ | ⟨h, -⟩
  · exfalso
    have h2 : (a ^ 2 - 3 * b ^ 2) % 3 = 2 := by rw [h]; rfl
    have h3 : a % 3 = 0 ∨ a % 3 = 1 ∨ a % 3 = 2 := by omega
    have h4 : a ^ 2 % 3 = 2 := by omega
    rcases h3 with h3 | h3 | h3 <;> rw [pow_two, Int.mul_emod, h3] at h4 <;> omega
  · exact h

end Rosemary.Props
