import Verif.Model.Pell
import Verif.Lemmas.PellClasses
import Verif.Props.SquareRoots
import Verif.Props.Primality

/-!
# The lists of solutions of `x² - D y² = N`
-/

namespace Rosemary.Pell

open Rosemary.PellClasses Rosemary.Classification Rosemary.Props

variable {D N u v : ℤ}

/-! ## The candidates -/

theorem mem_progression {r B D : ℤ} (hD : 0 < D) (x : ℤ) : x ∈ progression r B D ↔ r ≤ x ∧ x < B ∧ D ∣ x - r := by
  rw [progression, List.mem_map]
  have hdm := Int.mul_ediv_add_emod (B - r + D - 1) D
  have hm0 := Int.emod_nonneg (B - r + D - 1) (ne_of_gt hD)
  have hm1 := Int.emod_lt_of_pos (B - r + D - 1) hD
  constructor
  · rintro ⟨i, hi, rfl⟩
    rw [List.mem_range] at hi
    have hi' : (i : ℤ) + 1 ≤ (B - r + D - 1) / D := by omega
    have : D * ((i : ℤ) + 1) ≤ D * ((B - r + D - 1) / D) := mul_le_mul_of_nonneg_left hi' hD.le
    have h0 : 0 ≤ (i : ℤ) * D := by positivity
    refine ⟨by omega, ?_, ⟨i, by ring⟩⟩
    have : D * ((i : ℤ) + 1) = i * D + D := by ring
    omega
  · rintro ⟨h1, h2, k, hk⟩
    have hk0 : 0 ≤ k := by
      by_contra hc
      have : D * k < 0 := mul_neg_of_pos_of_neg hD (by omega)
      omega
    refine ⟨k.toNat, ?_, ?_⟩
    · rw [List.mem_range]
      have : k < (B - r + D - 1) / D := by
        rw [Int.lt_iff_add_one_le, Int.le_ediv_iff_mul_le hD]
        have : (k + 1) * D = D * k + D := by ring
        omega
      omega
    · rw [Int.toNat_of_nonneg hk0]
      have := mul_comm D k
      omega

theorem nodup_progression {r B D : ℤ} (hD : 0 < D) : (progression r B D).Nodup := by
  refine List.Nodup.map ?_ List.nodup_range
  intro a b h
  dsimp only at h
  have h' : (a : ℤ) * D = b * D := by omega
  exact_mod_cast mul_right_cancel₀ (ne_of_gt hD) h'

/-- The numbers that are tried. -/
theorem trials (hD : 0 < D) (B : ℤ) {R : List ℤ} (hR : R.Pairwise (· < ·))
    (hmem : ∀ x, x ∈ R ↔ 0 ≤ x ∧ x < D ∧ D ∣ x ^ 2 - N) :
    (R.flatMap (fun r => progression r B D)).Nodup ∧
      ∀ x, x ∈ R.flatMap (fun r => progression r B D) ↔ 0 ≤ x ∧ x < B ∧ D ∣ x * x - N := by
  constructor
  · rw [List.nodup_flatMap]
    refine ⟨fun r _ => nodup_progression hD, ?_⟩
    have hR' : R.Pairwise (fun a b => (0 ≤ a ∧ a < D) ∧ (0 ≤ b ∧ b < D) ∧ a < b) :=
      List.Pairwise.imp_of_mem (fun ha hb hab => ⟨⟨((hmem _).1 ha).1, ((hmem _).1 ha).2.1⟩,
        ⟨((hmem _).1 hb).1, ((hmem _).1 hb).2.1⟩, hab⟩) hR
    refine hR'.imp ?_
    rintro a b ⟨⟨a0, a1⟩, ⟨b0, b1⟩, hab⟩ x hx hx'
    rw [mem_progression hD] at hx hx'
    have : D ∣ b - a := by
      have := dvd_sub hx.2.2 hx'.2.2
      rwa [show x - a - (x - b) = b - a by ring] at this
    have := Int.le_of_dvd (by omega) this
    omega
  · intro x
    rw [List.mem_flatMap]
    constructor
    · rintro ⟨r, hr, hx⟩
      rw [mem_progression hD] at hx
      obtain ⟨r0, r1, r2⟩ := (hmem r).1 hr
      refine ⟨by omega, hx.2.1, ?_⟩
      have : x * x - N = (x - r) * (x + r) + (r ^ 2 - N) := by ring
      rw [this]
      exact dvd_add (Dvd.dvd.mul_right hx.2.2 _) r2
    · rintro ⟨h0, h1, h2⟩
      have hdm := Int.mul_ediv_add_emod x D
      have hm0 := Int.emod_nonneg x (ne_of_gt hD)
      have hm1 := Int.emod_lt_of_pos x hD
      have hd0 : 0 ≤ D * (x / D) := mul_nonneg hD.le (Int.ediv_nonneg h0 hD.le)
      refine ⟨x % D, (hmem _).2 ⟨hm0, hm1, ?_⟩, (mem_progression hD x).2 ⟨by omega, h1, ⟨x / D, by omega⟩⟩⟩
      have : (x % D) ^ 2 - N = (x * x - N) - D * ((x / D) * (x + x % D)) := by
        have e : x % D = x - D * (x / D) := by omega
        rw [e]; ring
      rw [this]
      exact dvd_sub h2 (dvd_mul_right _ _)

/-- The pairs for one `x`. -/
theorem candidates_spec (hD : 0 < D) (hN : N ≠ 0) {x : ℤ} (hx : 0 ≤ x) (hdvd : D ∣ x * x - N) :
    ∃ l, candidates D N x = .ok l ∧ l.Nodup ∧
      ∀ s, s ∈ l ↔ ∃ y, Sol D N x y ∧ (s = (x, y) ∨ (s = (-x, y) ∧ ¬ Same D N x y)) := by
  obtain ⟨z, hz⟩ := hdvd
  have hdiv : (x * x - N).fdiv D = z := by
    rw [hz, Int.fdiv_eq_ediv_of_nonneg _ hD.le, Int.mul_ediv_cancel_left _ (ne_of_gt hD)]
  have hsol : ∀ y : ℤ, 0 < y → (Sol D N x y ↔ y ^ 2 = z) := by
    intro y hy
    constructor
    · intro h
      have h1 := h.norm
      apply mul_left_cancel₀ (ne_of_gt hD)
      rw [← hz, ← h1]; ring
    · intro h
      refine ⟨hx, hy, ?_⟩
      have : D * y * y = D * z := by rw [← h]; ring
      rw [this, ← hz]; ring
  rw [candidates, hdiv]
  rcases C14_is_square z with ⟨y, h1, h2⟩ | ⟨h1, h2⟩
  · rw [h1]
    dsimp only
    by_cases hy : y > 0
    · rw [if_pos hy, if_neg hN]
      have hy' : (0 : ℤ) < y := by exact_mod_cast hy
      have hS := (hsol y hy').2 h2
      have huniq : ∀ y', Sol D N x y' → y' = y := by
        intro y' h'
        have := (hsol y' h'.hy).1 h'
        have h3 : y' * y' = (y : ℤ) * y := by rw [← pow_two, ← pow_two, this, h2]
        have := h'.hy
        nlinarith
      have hiff : ((-x * x - D * y * y).fmod N = 0 ∧ (2 * x * (y : ℤ)).fmod N = 0) ↔ Same D N x y := by
        have hf : ∀ a : ℤ, a.fmod N = 0 ↔ N ∣ a := fun a => (Int.dvd_iff_fmod_eq_zero).symm
        rw [hf, hf, Same, show -x * x - D * y * y = -(x * x + D * y * y) by ring, dvd_neg]
      by_cases hsame : Same D N x y
      · rw [if_pos (hiff.2 hsame)]
        refine ⟨_, rfl, by simp, fun s => ?_⟩
        rw [List.mem_singleton]
        constructor
        · intro h; exact ⟨y, hS, Or.inl h⟩
        · rintro ⟨y', h', h3 | ⟨h3, h4⟩⟩
          · rw [h3, huniq y' h']
          · rw [huniq y' h'] at h4
            exact absurd hsame h4
      · rw [if_neg (fun h => hsame (hiff.1 h))]
        have hx0 : x ≠ 0 := by
          rintro rfl
          apply hsame
          refine ⟨?_, by simp⟩
          have := hS.norm
          rw [← this]
          exact ⟨-1, by ring⟩
        refine ⟨_, rfl, ?_, fun s => ?_⟩
        · rw [List.nodup_cons]
          refine ⟨?_, by simp⟩
          rw [List.mem_singleton, Prod.mk.injEq]
          omega
        · rw [List.mem_cons, List.mem_singleton]
          constructor
          · rintro (h | h)
            · exact ⟨y, hS, Or.inl h⟩
            · exact ⟨y, hS, Or.inr ⟨h, hsame⟩⟩
          · rintro ⟨y', h', h3 | ⟨h3, h4⟩⟩
            · left; rw [h3, huniq y' h']
            · right; rw [h3, huniq y' h']
    · rw [if_neg hy]
      refine ⟨[], rfl, List.nodup_nil, fun s => ⟨fun h => absurd h List.not_mem_nil, ?_⟩⟩
      rintro ⟨y', h', -⟩
      exfalso
      have h3 := (hsol y' h'.hy).1 h'
      have hy0 : y = 0 := by omega
      rw [hy0] at h2
      rw [← h2] at h3
      have := h'.hy
      simp at h3
      omega
  · rw [h1]
    refine ⟨[], rfl, List.nodup_nil, fun s => ⟨fun h => absurd h List.not_mem_nil, ?_⟩⟩
    rintro ⟨y', h', -⟩
    exact absurd ((hsol y' h'.hy).1 h') (h2 y')

theorem fundamentalSolutions_spec (hD : 0 < D) (hN : N ≠ 0) (xs : List ℤ) (hnd : xs.Nodup)
    (hxs : ∀ x ∈ xs, 0 ≤ x ∧ D ∣ x * x - N) :
    ∃ l, fundamentalSolutions D N xs = .ok l ∧ l.Nodup ∧
      ∀ s, s ∈ l ↔ ∃ x ∈ xs, ∃ y, Sol D N x y ∧ (s = (x, y) ∨ (s = (-x, y) ∧ ¬ Same D N x y)) := by
  induction xs with
  | nil => exact ⟨[], rfl, List.nodup_nil, fun s => by simp⟩
  | cons x xs ih =>
    rw [List.nodup_cons] at hnd
    obtain ⟨hx0, hxd⟩ := hxs x List.mem_cons_self
    obtain ⟨l, l1, l2, l3⟩ := candidates_spec hD hN hx0 hxd
    obtain ⟨m, m1, m2, m3⟩ := ih hnd.2 (fun z hz => hxs z (List.mem_cons_of_mem _ hz))
    rw [fundamentalSolutions, l1, m1]
    refine ⟨l ++ m, rfl, ?_, fun s => ?_⟩
    · rw [List.nodup_append]
      refine ⟨l2, m2, ?_⟩
      rintro a ha b hb rfl
      obtain ⟨y, -, h3⟩ := (l3 a).1 ha
      obtain ⟨x', hx', y', -, h4⟩ := (m3 a).1 hb
      have hx'0 := (hxs x' (List.mem_cons_of_mem _ hx')).1
      have : x = x' := by
        have e1 : |a.1| = x := by
          rcases h3 with h | ⟨h, -⟩ <;> rw [h] <;> simp [abs_of_nonneg hx0]
        have e2 : |a.1| = x' := by
          rcases h4 with h | ⟨h, -⟩ <;> rw [h] <;> simp [abs_of_nonneg hx'0]
        rw [← e1, e2]
      exact hnd.1 (this ▸ hx')
    · rw [List.mem_append, l3, m3]
      constructor
      · rintro (⟨y, h⟩ | ⟨x', hx', h⟩)
        · exact ⟨x, List.mem_cons_self, y, h⟩
        · exact ⟨x', List.mem_cons_of_mem _ hx', h⟩
      · rintro ⟨x', hx', h⟩
        rcases List.mem_cons.1 hx' with rfl | hx'
        · exact Or.inl h
        · exact Or.inr ⟨x', hx', h⟩

/-! ## The minimal solutions -/

theorem minimalOf_direct {x y : ℤ} (hx : 0 ≤ x) : minimalOf D N u v (x, y) = (x, y) := by
  rw [minimalOf, if_neg (by dsimp only; omega)]

theorem minimalOf_conj {x y : ℤ} (hx : 0 < x) : minimalOf D N u v (-x, y) = conjMul D u v N x y := by
  rw [minimalOf, if_pos (by dsimp only; omega), conjMul]
  by_cases hpos : N > 0
  · rw [if_pos hpos, if_pos hpos, if_pos hpos]
    dsimp only
    exact Prod.ext (by dsimp only; ring) (by dsimp only; ring)
  · rw [if_neg hpos, if_neg hpos, if_neg hpos]
    dsimp only
    exact Prod.ext (by dsimp only; ring) (by dsimp only; ring)

theorem conjMul_injective (hU : PellClasses.Unit D u v) {x y x' y' : ℤ} (h : conjMul D u v N x y = conjMul D u v N x' y') :
    (x, y) = (x', y') := by
  have hn := hU.norm
  rw [conjMul, conjMul, Prod.mk.injEq] at h
  obtain ⟨h1, h2⟩ := h
  by_cases hpos : N > 0
  · rw [if_pos hpos, if_pos hpos] at h1 h2
    exact Prod.ext (by dsimp only; linear_combination u * h1 - D * v * h2 + (x' - x) * hn)
      (by dsimp only; linear_combination v * h1 - u * h2 + (y' - y) * hn)
  · rw [if_neg hpos, if_neg hpos] at h1 h2
    exact Prod.ext (by dsimp only; linear_combination -u * h1 + D * v * h2 + (x' - x) * hn)
      (by dsimp only; linear_combination -v * h1 + u * h2 + (y' - y) * hn)

/-- The list of the minimal solutions consists of the base solutions. -/
theorem minimal_spec (hU : PellClasses.Unit D u v) (hN : N ≠ 0) (hnsq : ∀ k : ℤ, k * k ≠ N) {l : List (ℤ × ℤ)} (hnd : l.Nodup)
    (hmem : ∀ s, s ∈ l ↔ ∃ x, Small u N x ∧ ∃ y, Sol D N x y ∧ (s = (x, y) ∨ (s = (-x, y) ∧ ¬ Same D N x y))) :
    (l.map (minimalOf D N u v)).Nodup ∧ ∀ s : ℤ × ℤ, s ∈ l.map (minimalOf D N u v) ↔ Base D u v N s.1 s.2 := by
  have hpos : ∀ x y, Sol D N x y → ¬ Same D N x y → 0 < x := by
    intro x y h hs
    rcases h.hx.lt_or_eq with h0 | h0
    · exact h0
    · exfalso
      apply hs
      subst h0
      have := h.norm
      exact ⟨by rw [← this]; exact ⟨-1, by ring⟩, by simp⟩
  constructor
  · refine List.Nodup.map_on ?_ hnd
    intro a ha b hb hab
    obtain ⟨x, hx, y, hS, h⟩ := (hmem a).1 ha
    obtain ⟨x', hx', y', hS', h'⟩ := (hmem b).1 hb
    rcases h with rfl | ⟨rfl, hs⟩ <;> rcases h' with rfl | ⟨rfl, hs'⟩
    · rw [minimalOf_direct hS.hx, minimalOf_direct hS'.hx] at hab
      exact hab
    · rw [minimalOf_direct hS.hx, minimalOf_conj (hpos _ _ hS' hs')] at hab
      exact absurd (direct_ne_conj hU hN hS hx hS' hx' hab) hs'
    · rw [minimalOf_conj (hpos _ _ hS hs), minimalOf_direct hS'.hx] at hab
      exact absurd (direct_ne_conj hU hN hS' hx' hS hx hab.symm) hs
    · rw [minimalOf_conj (hpos _ _ hS hs), minimalOf_conj (hpos _ _ hS' hs')] at hab
      have := conjMul_injective hU hab
      rw [Prod.mk.injEq] at this
      rw [this.1, this.2]
  · intro s
    rw [List.mem_map]
    constructor
    · rintro ⟨a, ha, rfl⟩
      obtain ⟨x, hx, y, hS, h⟩ := (hmem a).1 ha
      rcases h with rfl | ⟨rfl, hs⟩
      · rw [minimalOf_direct hS.hx]
        exact small_base hU hN hS hx
      · rw [minimalOf_conj (hpos _ _ hS hs)]
        exact conj_base hU hN hS (hpos _ _ hS hs) hx
    · intro hb
      rcases base_cases hU hN hnsq hb with hs | ⟨X, Y, hS, hX, hXs, hsame, he⟩
      · exact ⟨s, (hmem s).2 ⟨s.1, hs, s.2, hb.1, Or.inl rfl⟩, minimalOf_direct hb.1.hx⟩
      · exact ⟨(-X, Y), (hmem _).2 ⟨X, hXs, Y, hS, Or.inr ⟨rfl, hsame⟩⟩, by rw [minimalOf_conj hX]; exact he.symm⟩

/-! ## The generator -/

theorem chain_spec (hU : PellClasses.Unit D u v) (B : ℤ) (n : ℕ) (s : ℤ × ℤ) (hs : Sol D N s.1 s.2)
    (hn : (B + 1 - s.2).toNat ≤ n) :
    ∃ l, chain D u v B s.1 s.2 = some l ∧ l.Nodup ∧
      ∀ t : ℤ × ℤ, t ∈ l ↔ t.1 ≤ B ∧ t.2 ≤ B ∧ ∃ k, t = (mulU D u v)^[k] s := by
  have hmono : ∀ k, s.1 ≤ ((mulU D u v)^[k] s).1 ∧ s.2 ≤ ((mulU D u v)^[k] s).2 := by
    intro k
    induction k with
    | zero => exact ⟨le_rfl, le_rfl⟩
    | succ k ih =>
      rw [Function.iterate_succ_apply']
      have := mulU_lt hU (sol_iterate hU hs k)
      omega
  have hbase : ¬ (s.1 ≤ B ∧ s.2 ≤ B) → ∃ l, chain D u v B s.1 s.2 = some l ∧ l.Nodup ∧
      ∀ t : ℤ × ℤ, t ∈ l ↔ t.1 ≤ B ∧ t.2 ≤ B ∧ ∃ k, t = (mulU D u v)^[k] s := by
    intro hB
    rw [chain.eq_def, if_neg hB]
    refine ⟨[], rfl, List.nodup_nil, fun t => ⟨fun h => absurd h List.not_mem_nil, ?_⟩⟩
    rintro ⟨h1, h2, k, rfl⟩
    have := hmono k
    exact absurd ⟨by omega, by omega⟩ hB
  induction n generalizing s with
  | zero => exact hbase (by omega)
  | succ n ih =>
    by_cases hB : s.1 ≤ B ∧ s.2 ≤ B
    · have hlt := mulU_lt hU hs
      have hsol : Sol D N (mulU D u v s).1 (mulU D u v s).2 := hs.mul hU
      have hmono' : ∀ k, (mulU D u v s).1 ≤ ((mulU D u v)^[k] (mulU D u v s)).1 ∧
          (mulU D u v s).2 ≤ ((mulU D u v)^[k] (mulU D u v s)).2 := by
        intro k
        induction k with
        | zero => exact ⟨le_rfl, le_rfl⟩
        | succ k ih =>
          rw [Function.iterate_succ_apply']
          have := mulU_lt hU (sol_iterate hU hsol k)
          omega
      obtain ⟨l, l1, l2, l3⟩ := ih (mulU D u v s) hsol (by omega) hmono' (by
        intro hB'
        rw [chain.eq_def, if_neg hB']
        refine ⟨[], rfl, List.nodup_nil, fun t => ⟨fun h => absurd h List.not_mem_nil, ?_⟩⟩
        rintro ⟨h1, h2, k, rfl⟩
        have := hmono' k
        exact absurd ⟨by omega, by omega⟩ hB')
      rw [chain.eq_def, if_pos hB]
      have l1' : chain D u v B (s.1 * u + s.2 * v * D) (s.1 * v + s.2 * u) = some l := l1
      rw [l1']
      refine ⟨s :: l, rfl, ?_, fun t => ?_⟩
      · rw [List.nodup_cons]
        refine ⟨fun h => ?_, l2⟩
        obtain ⟨-, -, k, hk⟩ := (l3 s).1 h
        have := hmono' k
        rw [← hk] at this
        omega
      · rw [List.mem_cons, l3]
        constructor
        · rintro (rfl | ⟨h1, h2, k, hk⟩)
          · exact ⟨hB.1, hB.2, 0, rfl⟩
          · exact ⟨h1, h2, k + 1, hk⟩
        · rintro ⟨h1, h2, k, hk⟩
          cases k with
          | zero => exact Or.inl hk
          | succ k => exact Or.inr ⟨h1, h2, k, hk⟩
    · exact hbase hB

theorem chains_spec (hU : PellClasses.Unit D u v) (B : ℤ) (L : List (ℤ × ℤ)) (hnd : L.Nodup)
    (hL : ∀ s ∈ L, Base D u v N s.1 s.2) :
    ∃ l, chains D u v B L = some l ∧ l.Nodup ∧
      ∀ t : ℤ × ℤ, t ∈ l ↔ t.1 ≤ B ∧ t.2 ≤ B ∧ ∃ s ∈ L, ∃ k, t = (mulU D u v)^[k] s := by
  induction L with
  | nil => exact ⟨[], rfl, List.nodup_nil, fun t => by simp⟩
  | cons s L ih =>
    rw [List.nodup_cons] at hnd
    have hs := hL s List.mem_cons_self
    obtain ⟨l, l1, l2, l3⟩ := chain_spec hU B _ s hs.1 le_rfl
    obtain ⟨m, m1, m2, m3⟩ := ih hnd.2 (fun z hz => hL z (List.mem_cons_of_mem _ hz))
    rw [chains, l1, m1]
    refine ⟨l ++ m, rfl, ?_, fun t => ?_⟩
    · rw [List.nodup_append]
      refine ⟨l2, m2, ?_⟩
      rintro a ha b hb rfl
      obtain ⟨-, -, k, hk⟩ := (l3 a).1 ha
      obtain ⟨-, -, s', hs', k', hk'⟩ := (m3 a).1 hb
      have := (base_unique hU hs (hL s' (List.mem_cons_of_mem _ hs')) k k' (hk.symm.trans hk')).1
      exact hnd.1 (this ▸ hs')
    · rw [List.mem_append, l3, m3]
      constructor
      · rintro (⟨h1, h2, k, hk⟩ | ⟨h1, h2, s', hs', h⟩)
        · exact ⟨h1, h2, s, List.mem_cons_self, k, hk⟩
        · exact ⟨h1, h2, s', List.mem_cons_of_mem _ hs', h⟩
      · rintro ⟨h1, h2, s', hs', h⟩
        rcases List.mem_cons.1 hs' with rfl | hs'
        · exact Or.inl ⟨h1, h2, h⟩
        · exact Or.inr ⟨h1, h2, s', hs', h⟩

/-! ## Soundness without conditions -/

theorem candidates_sound (hD : D ≠ 0) {x : ℤ} (hdvd : D ∣ x * x - N) {l : List (ℤ × ℤ)} (h : candidates D N x = .ok l) :
    ∀ s ∈ l, s.1 * s.1 - D * s.2 * s.2 = N := by
  obtain ⟨z, hz⟩ := hdvd
  have hdiv : (x * x - N).fdiv D = z := by
    rw [hz, mul_comm, Int.mul_fdiv_cancel _ hD]
  rw [candidates, hdiv] at h
  rcases C14_is_square z with ⟨y, h1, h2⟩ | ⟨h1, h2⟩
  · rw [h1] at h
    dsimp only at h
    have key : x * x - D * y * y = N := by
      rw [mul_assoc, ← pow_two (y : ℤ), h2, ← hz]; ring
    split at h
    · split at h
      · exact absurd h (by simp)
      · split at h
        · cases h
          intro s hs
          rw [List.mem_singleton] at hs
          rw [hs]; exact key
        · cases h
          intro s hs
          rw [List.mem_cons, List.mem_singleton] at hs
          rcases hs with rfl | rfl
          · exact key
          · dsimp only; rw [neg_mul_neg]; exact key
    · cases h
      intro s hs
      exact absurd hs List.not_mem_nil
  · rw [h1] at h
    cases h
    intro s hs
    exact absurd hs List.not_mem_nil

theorem fundamentalSolutions_sound (hD : D ≠ 0) (xs : List ℤ) (hxs : ∀ x ∈ xs, D ∣ x * x - N) {l : List (ℤ × ℤ)}
    (h : fundamentalSolutions D N xs = .ok l) : ∀ s ∈ l, s.1 * s.1 - D * s.2 * s.2 = N := by
  induction xs generalizing l with
  | nil => cases h; intro s hs; exact absurd hs List.not_mem_nil
  | cons x xs ih =>
    rw [fundamentalSolutions] at h
    cases hc : candidates D N x with
    | error e => rw [hc] at h; exact absurd h (by simp)
    | ok a =>
      rw [hc] at h
      dsimp only at h
      cases hf : fundamentalSolutions D N xs with
      | error e => rw [hf] at h; exact absurd h (by simp)
      | ok b =>
        rw [hf] at h
        cases h
        intro s hs
        rcases List.mem_append.1 hs with hs | hs
        · exact candidates_sound hD (hxs x List.mem_cons_self) hc s hs
        · exact ih (fun z hz => hxs z (List.mem_cons_of_mem _ hz)) hf s hs

theorem minimalOf_sound (hn : u * u - D * v * v = 1) {s : ℤ × ℤ} (h : s.1 * s.1 - D * s.2 * s.2 = N) :
    (minimalOf D N u v s).1 * (minimalOf D N u v s).1 - D * (minimalOf D N u v s).2 * (minimalOf D N u v s).2 = N := by
  rw [minimalOf]
  split
  · split
    rename_i p q hpq
    have hp : p * p - D * q * q = N := by
      split at hpq
      · rw [Prod.mk.injEq] at hpq
        rw [← hpq.1, ← hpq.2, ← h]; ring
      · rw [hpq] at h
        exact h
    dsimp only
    linear_combination hn * (p * p - D * q * q) + hp
  · exact h

theorem chain_sound (hn : u * u - D * v * v = 1) (B p q : ℤ) (l : List (ℤ × ℤ)) (h : chain D u v B p q = some l) :
    p * p - D * q * q = N → ∀ s ∈ l, s.1 * s.1 - D * s.2 * s.2 = N := by
  refine chain.partial_correctness D u v B (motive := fun p q l => p * p - D * q * q = N →
    ∀ s ∈ l, s.1 * s.1 - D * s.2 * s.2 = N) ?_ p q l h
  intro f ih p q l hl hp s hs
  split at hl
  · rw [Option.bind_eq_bind, Option.bind_eq_some_iff] at hl
    obtain ⟨m, hm, he⟩ := hl
    cases he
    rcases List.mem_cons.1 hs with rfl | hs
    · exact hp
    · exact ih _ _ _ hm (by linear_combination hn * (p * p - D * q * q) + hp) s hs
  · cases hl
    exact absurd hs List.not_mem_nil

theorem chains_sound (hn : u * u - D * v * v = 1) (B : ℤ) (L l : List (ℤ × ℤ)) (h : chains D u v B L = some l)
    (hL : ∀ s ∈ L, s.1 * s.1 - D * s.2 * s.2 = N) : ∀ s ∈ l, s.1 * s.1 - D * s.2 * s.2 = N := by
  induction L generalizing l with
  | nil => cases h; intro s hs; exact absurd hs List.not_mem_nil
  | cons t L ih =>
    rw [chains] at h
    cases hc : chain D u v B t.1 t.2 with
    | none => rw [hc] at h; exact absurd h (by simp)
    | some a =>
      rw [hc] at h
      dsimp only at h
      cases hf : chains D u v B L with
      | none => rw [hf] at h; exact absurd h (by simp)
      | some b =>
        rw [hf] at h
        cases h
        intro s hs
        rcases List.mem_append.1 hs with hs | hs
        · exact chain_sound hn B t.1 t.2 a hc (hL t List.mem_cons_self) s hs
        · exact ih b hf (fun z hz => hL z (List.mem_cons_of_mem _ hz)) s hs

end Rosemary.Pell
