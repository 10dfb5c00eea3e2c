import Verif.Props.FloatPaths

/-!
# What rounding breaks (C173)

Python's rounding, to the nearest float and ties to even, and concrete graphs.
-/

namespace Rosemary.Props

open Rosemary.Graph Rosemary.Paths Rosemary.Spec Rosemary.Floats

/-- A Python float. -/
abbrev PyFloat := Double nearestEven

/-- The float `m * 2^e`. -/
noncomputable def pyFloat (m e : ℤ) (h : |m| ≤ 2 ^ 53) : PyFloat := ⟨m * 2 ^ e, m, e, h, rfl⟩

noncomputable def one : PyFloat := pyFloat 1 0 (by norm_num)

/-- `2**-53` -/
noncomputable def tiny : PyFloat := pyFloat 1 (-53) (by norm_num)

/-- `1 + 2**-52`, the least float above 1. -/
noncomputable def next : PyFloat := pyFloat (2 ^ 52 + 1) (-52) (by norm_num)

/-- `-2**-60` -/
noncomputable def negative : PyFloat := pyFloat (-1) (-60) (by norm_num)

theorem one_val : one.val = 1 := by simp [one, pyFloat, Double.val]

theorem tiny_val : tiny.val = (2 : ℝ)⁻¹ ^ 53 := by
  simp only [tiny, pyFloat, Double.val]
  rw [show (-53 : ℤ) = -((53 : ℕ) : ℤ) by norm_num, zpow_neg, zpow_natCast, inv_pow]; simp

theorem next_val : next.val = 1 + 2 * (2 : ℝ)⁻¹ ^ 53 := by
  simp only [next, pyFloat, Double.val]
  rw [show (-52 : ℤ) = -((52 : ℕ) : ℤ) by norm_num, zpow_neg, zpow_natCast]; norm_num

theorem negative_val : negative.val = -(2 : ℝ)⁻¹ ^ 60 := by
  simp only [negative, pyFloat, Double.val]
  rw [show (-60 : ℤ) = -((60 : ℕ) : ℤ) by norm_num, zpow_neg, zpow_natCast, inv_pow]; simp

theorem log_eq {x : ℝ} {e : ℤ} (h1 : (2 : ℝ) ^ e ≤ x) (h2 : x < 2 ^ (e + 1)) : Int.log 2 |x| = e := by
  have hx : 0 < x := lt_of_lt_of_le (by positivity) h1
  rw [abs_of_pos hx]
  refine le_antisymm ?_ ?_
  · exact Int.lt_add_one_iff.1 ((Int.lt_zpow_iff_log_lt (b := 2) one_lt_two hx).1 (by exact_mod_cast h2))
  · exact (Int.zpow_le_iff_le_log (b := 2) one_lt_two hx).1 (by exact_mod_cast h1)

/-- `1.0 + 2**-53 == 1.0`, a tie. -/
theorem one_add_tiny : one + tiny = one := by
  refine Subtype.ext (?_ : nearestEven.rnd (one.val + tiny.val) = one.val)
  rw [one_val, tiny_val]
  change roundMantissa roundEven _ = _
  rw [roundMantissa, if_neg (by positivity), log_eq (e := 0) (by norm_num) (by norm_num)]
  have hf : (1 + (2 : ℝ)⁻¹ ^ 53) * 2 ^ ((52 : ℤ) - 0) = ((2 ^ 52 : ℤ) : ℝ) + 1 / 2 := by norm_num
  have hfl : ⌊((2 ^ 52 : ℤ) : ℝ) + 1 / 2⌋ = 2 ^ 52 := by
    rw [Int.floor_eq_iff]; constructor <;> linarith
  rw [hf, roundEven, hfl, if_neg (by linarith), if_neg (by linarith), if_pos (by decide)]
  norm_num

/-- `1.0 - 2**-60 == 1.0` -/
theorem one_add_negative : one + negative = one := by
  refine Subtype.ext (?_ : nearestEven.rnd (one.val + negative.val) = one.val)
  rw [one_val, negative_val]
  change roundMantissa roundEven _ = _
  rw [roundMantissa, if_neg (by norm_num), log_eq (e := -1) (by norm_num) (by norm_num)]
  have hf : (1 + -(2 : ℝ)⁻¹ ^ 60) * 2 ^ ((52 : ℤ) - -1) = ((2 ^ 53 - 1 : ℤ) : ℝ) + (1 - (2 : ℝ)⁻¹ ^ 7) := by norm_num
  have hfl : ⌊((2 ^ 53 - 1 : ℤ) : ℝ) + (1 - (2 : ℝ)⁻¹ ^ 7)⌋ = 2 ^ 53 - 1 := by
    rw [Int.floor_eq_iff]; constructor <;> norm_num
  rw [hf, roundEven, hfl, if_neg (by norm_num), if_pos (by norm_num)]
  norm_num

/-- A cycle: the edge 0-4 of weight `1 + 2**-52`, and the path 0-1-2-3-4 of weights `1, 2**-53, 2**-53, 2**-53`. -/
noncomputable def roundOps : List (Op ℕ PyFloat) := [Op.addEdges [(0, 1, one), (1, 2, tiny), (2, 3, tiny), (3, 4, tiny), (0, 4, next)]]

theorem roundOps_history : history roundOps =
    [(0, [(1, one), (4, next)]), (1, [(0, one), (2, tiny)]), (2, [(1, tiny), (3, tiny)]), (3, [(2, tiny), (4, tiny)]),
      (4, [(3, tiny), (0, next)])] := by
  rfl

theorem roundOps_edges {u v : ℕ} {x : PyFloat} (h : (toAbs (history roundOps)).weight u v = some x) :
    (u, v, x) ∈ [(0, 1, one), (0, 4, next), (1, 0, one), (1, 2, tiny), (2, 1, tiny), (2, 3, tiny), (3, 2, tiny), (3, 4, tiny),
      (4, 3, tiny), (4, 0, next)] := by
  change adj (history roundOps) u v = some x at h
  rw [adj] at h
  obtain ⟨N, hN, hx⟩ : ∃ N, Dict.get? (history roundOps) u = some N ∧ Dict.get? N v = some x := by
    cases e : Dict.get? (history roundOps) u with
    | none => rw [e] at h; simp at h
    | some N => rw [e] at h; exact ⟨N, rfl, h⟩
  have h1 := Dict.mem_of_get? hN
  have h2 := Dict.mem_of_get? hx
  rw [roundOps_history] at h1
  simp only [List.mem_cons, List.not_mem_nil, or_false, Prod.mk.injEq] at h1
  rcases h1 with ⟨rfl, rfl⟩ | ⟨rfl, rfl⟩ | ⟨rfl, rfl⟩ | ⟨rfl, rfl⟩ | ⟨rfl, rfl⟩ <;>
    simp only [List.mem_cons, List.not_mem_nil, or_false, Prod.mk.injEq] at h2 <;>
    rcases h2 with ⟨rfl, rfl⟩ | ⟨rfl, rfl⟩ <;> simp

theorem roundOps_nonneg : Nonneg roundOps := by
  intro u v x h
  have := roundOps_edges h
  have h1 : (0 : PyFloat) ≤ one := Double.le_iff.2 (by rw [one_val, Double.val_zero]; norm_num)
  have h2 : (0 : PyFloat) ≤ tiny := Double.le_iff.2 (by rw [tiny_val, Double.val_zero]; positivity)
  have h3 : (0 : PyFloat) ≤ next := Double.le_iff.2 (by rw [next_val, Double.val_zero]; positivity)
  simp only [List.mem_cons, List.not_mem_nil, or_false, Prod.mk.injEq] at this
  rcases this with ⟨-, -, rfl⟩ | ⟨-, -, rfl⟩ | ⟨-, -, rfl⟩ | ⟨-, -, rfl⟩ | ⟨-, -, rfl⟩ | ⟨-, -, rfl⟩ | ⟨-, -, rfl⟩ | ⟨-, -, rfl⟩ |
    ⟨-, -, rfl⟩ | ⟨-, -, rfl⟩ <;> assumption

/-- The exact lengths of the walks from 0, together with the computed ones. -/
theorem roundOps_walks {p : List ℕ} {v : ℕ} {c : PyFloat} (h : WalkOf (toAbs (history roundOps)).weight 0 p v c) :
    ∃ L, WalkOf (Double.exactWeight (toAbs (history roundOps)).weight) 0 p v L ∧ 0 ≤ c.val ∧
      ((v = 0 ∧ 0 ≤ L) ∨ (v = 1 ∧ 1 ≤ L ∧ 1 ≤ c.val) ∨ (v = 2 ∧ 1 + (2 : ℝ)⁻¹ ^ 53 ≤ L ∧ 1 ≤ c.val) ∨
        (v = 3 ∧ 1 + 2 * (2 : ℝ)⁻¹ ^ 53 ≤ L ∧ 1 ≤ c.val) ∨
        (v = 4 ∧ 1 + 2 * (2 : ℝ)⁻¹ ^ 53 ≤ L ∧ 1 ≤ c.val ∧ (1 + 3 * (2 : ℝ)⁻¹ ^ 53 ≤ L ∨ next ≤ c))) := by
  induction h with
  | start => exact ⟨0, .start, by rw [Double.val_zero], Or.inl ⟨rfl, le_rfl⟩⟩
  | step hp hx ih =>
    rename_i p v w c x
    obtain ⟨L, h1, h0, h2⟩ := ih
    have hpos := roundOps_nonneg _ _ _ hx
    have hstep : WalkOf (Double.exactWeight (toAbs (history roundOps)).weight) 0 (p ++ [w]) w (L + x.val) :=
      .step h1 (by rw [Double.exactWeight, hx]; rfl)
    have hinfl : c.val ≤ (c + x).val := Double.le_iff.1 (PathAdd.infl c x hpos)
    have hup : ∀ d : PyFloat, d.val ≤ c.val + x.val → d.val ≤ (c + x).val := fun d hd => by
      rw [Double.val_add]; exact nearestEven.isRounding.lower _ _ d.2 hd
    have ht : (0 : ℝ) < (2 : ℝ)⁻¹ ^ 53 := by positivity
    refine ⟨L + x.val, hstep, h0.trans hinfl, ?_⟩
    have he := roundOps_edges hx
    simp only [List.mem_cons, List.not_mem_nil, or_false, Prod.mk.injEq] at he
    have o1 := one_val
    have o2 := tiny_val
    have o3 := next_val
    rcases he with ⟨rfl, rfl, rfl⟩ | ⟨rfl, rfl, rfl⟩ | ⟨rfl, rfl, rfl⟩ | ⟨rfl, rfl, rfl⟩ | ⟨rfl, rfl, rfl⟩ | ⟨rfl, rfl, rfl⟩ |
      ⟨rfl, rfl, rfl⟩ | ⟨rfl, rfl, rfl⟩ | ⟨rfl, rfl, rfl⟩ | ⟨rfl, rfl, rfl⟩ <;>
    rcases h2 with ⟨h, h2⟩ | ⟨h, h2, h3⟩ | ⟨h, h2, h3⟩ | ⟨h, h2, h3⟩ | ⟨h, h2, h3, h4⟩ <;> try (exfalso; omega)
    · exact Or.inr (Or.inl ⟨rfl, by linarith, by rw [← o1]; exact hup one (by linarith)⟩)
    · have := hup next (by linarith)
      exact Or.inr (Or.inr (Or.inr (Or.inr ⟨rfl, by linarith, by linarith, Or.inr (Double.le_iff.2 this)⟩)))
    · exact Or.inl ⟨rfl, by linarith⟩
    · exact Or.inr (Or.inr (Or.inl ⟨rfl, by linarith, by linarith⟩))
    · exact Or.inr (Or.inl ⟨rfl, by linarith, by linarith⟩)
    · exact Or.inr (Or.inr (Or.inr (Or.inl ⟨rfl, by linarith, by linarith⟩)))
    · exact Or.inr (Or.inr (Or.inl ⟨rfl, by linarith, by linarith⟩))
    · exact Or.inr (Or.inr (Or.inr (Or.inr ⟨rfl, by linarith, by linarith, Or.inl (by linarith)⟩)))
    · exact Or.inr (Or.inr (Or.inr (Or.inl ⟨rfl, by linarith, by linarith⟩)))
    · exact Or.inl ⟨rfl, by linarith⟩

theorem zero_add_one : (0 : PyFloat) + one = one := Subtype.ext (by
  change nearestEven.rnd ((0 : ℝ) + one.1) = one.1
  rw [zero_add]; exact nearestEven.exact _ one.2)

theorem roundOps_weight : (toAbs (history roundOps)).weight 0 1 = some one ∧ (toAbs (history roundOps)).weight 1 2 = some tiny ∧
    (toAbs (history roundOps)).weight 2 3 = some tiny ∧ (toAbs (history roundOps)).weight 3 4 = some tiny ∧
    (toAbs (history roundOps)).weight 0 4 = some next ∧ (toAbs (history roundOps)).weight 4 0 = some next := ⟨rfl, rfl, rfl, rfl, rfl, rfl⟩

theorem roundOps_verts (v : ℕ) (hv : v < 5) : v ∈ (toAbs (history roundOps)).verts := by
  change v ∈ Dict.keys (history roundOps)
  rw [roundOps_history]
  simp only [Dict.keys, List.map_cons, List.map_nil, List.mem_cons, List.not_mem_nil, or_false]
  omega

/-- C173, violation: with Python's floats the distance that `dijkstra` returns for 4 from 0 is 1, although the distance
is the float `1 + 2**-52`; and the links lead along a path that is not a shortest one. -/
theorem C173_not_a_shortest_path_violation : ∃ D P, dijkstra (history roundOps) 0 = some (.ok (D, P)) ∧
    Dict.get? D 4 = some ((one : PyFloat) : WithTop PyFloat) ∧
    IsShortest (Double.exactWeight (toAbs (history roundOps)).weight) 0 4 next.val ∧ one < next ∧
    ∀ p L, LinkPath (Dict.get? P) 0 p 4 → WalkOf (Double.exactWeight (toAbs (history roundOps)).weight) 0 p 4 L → next.val < L := by
  obtain ⟨D, P, h1, h2, h3, h4, -⟩ := C173_dijkstra_least roundOps roundOps_nonneg 0 (roundOps_verts 0 (by norm_num))
  have ht : (0 : ℝ) < (2 : ℝ)⁻¹ ^ 53 := by positivity
  obtain ⟨w1, w2, w3, w4, w5, w6⟩ := roundOps_weight
  have hlt : one < next := lt_of_not_ge (fun h => by
    have := Double.le_iff.1 h; rw [one_val, next_val] at this; linarith)
  have hwalk : WalkOf (toAbs (history roundOps)).weight 0 [0, 1, 2, 3, 4] 4 one := by
    have := WalkOf.step (WalkOf.step (WalkOf.step (WalkOf.step WalkOf.start w1) w2) w3) w4
    rw [zero_add_one, one_add_tiny, one_add_tiny, one_add_tiny] at this
    exact this
  obtain ⟨d, hd⟩ := (h2 4).1 (roundOps_verts 4 (by norm_num))
  have hd1 : d = ((one : PyFloat) : WithTop PyFloat) := by
    cases d with
    | top => exact absurd hwalk ((h3 4 _ hd).2 rfl _ _)
    | coe c =>
      obtain ⟨⟨q, hq⟩, hmin⟩ := (h3 4 _ hd).1 c rfl
      obtain ⟨L, -, -, hL⟩ := roundOps_walks hq
      have hc : 1 ≤ c.val := by
        rcases hL with ⟨h, -⟩ | ⟨h, -⟩ | ⟨h, -⟩ | ⟨h, -⟩ | ⟨-, -, h, -⟩
        · omega
        · omega
        · omega
        · omega
        · exact h
      rw [le_antisymm (hmin _ _ hwalk) (Double.le_iff.2 (by rw [one_val]; exact hc))]
  rw [hd1] at hd
  refine ⟨D, P, h1, hd, ⟨⟨[0, 4], ?_⟩, fun q L hL => ?_⟩, hlt, fun p L hp hL => ?_⟩
  · have := WalkOf.step (A := Double.exactWeight (toAbs (history roundOps)).weight) (s := 0) WalkOf.start
      (show Double.exactWeight (toAbs (history roundOps)).weight 0 4 = some next.val by rw [Double.exactWeight, w5]; rfl)
    rw [zero_add] at this
    exact this
  · obtain ⟨c, hc, -⟩ := walk_rounded roundOps_nonneg hL
    obtain ⟨L', k1, -, k2⟩ := roundOps_walks hc
    obtain rfl := (walk_weight hL k1).2
    rw [next_val]
    rcases k2 with ⟨h, -⟩ | ⟨h, -⟩ | ⟨h, -⟩ | ⟨h, -⟩ | ⟨-, h, -⟩
    · omega
    · omega
    · omega
    · omega
    · exact h
  · obtain ⟨p', hp', hw⟩ := h4 4 one hd
    obtain rfl := link_unique hp hp'
    obtain ⟨L', k1, -, k2⟩ := roundOps_walks hw
    obtain rfl := (walk_weight hL k1).2
    rw [next_val]
    rcases k2 with ⟨h, -⟩ | ⟨h, -⟩ | ⟨h, -⟩ | ⟨h, -⟩ | ⟨-, -, -, h | h⟩
    · omega
    · omega
    · omega
    · omega
    · linarith
    · exact absurd h (not_le.2 hlt)

/-- C173, violation: the distance from 4 to 0 is not the one from 0 to 4. -/
theorem C173_symmetry_violation : ∃ D P D' P', dijkstra (history roundOps) 0 = some (.ok (D, P)) ∧
    dijkstra (history roundOps) 4 = some (.ok (D', P')) ∧ Dict.get? D 4 ≠ Dict.get? D' 0 := by
  obtain ⟨D, P, h1, h2, -, hlt, -⟩ := C173_not_a_shortest_path_violation
  obtain ⟨D', P', k1, k2, k3, k4, -⟩ := C173_dijkstra_least roundOps roundOps_nonneg 4 (roundOps_verts 4 (by norm_num))
  refine ⟨D, P, D', P', h1, k1, fun he => ?_⟩
  rw [h2] at he
  obtain ⟨⟨p, hp⟩, -⟩ := (k3 0 _ he.symm).1 one rfl
  -- the potential `next, 2**-52, 2**-52, 2**-53, 0`
  have hz : (0 : PyFloat).val = 0 := rfl
  have hv : (pyFloat 1 (-52) (by norm_num)).val = 2 * (2 : ℝ)⁻¹ ^ 53 := by
    simp only [pyFloat, Double.val]
    rw [show (-52 : ℤ) = -((52 : ℕ) : ℤ) by norm_num, zpow_neg, zpow_natCast]; norm_num
  have o1 := one_val
  have o2 := tiny_val
  have o3 := next_val
  have ht : (0 : ℝ) < (2 : ℝ)⁻¹ ^ 53 := by positivity
  have ht1 : (2 : ℝ)⁻¹ ^ 53 < 1 / 4 := by norm_num
  have := walk_potential (f := fun v => if v = 0 then next else if v = 1 then pyFloat 1 (-52) (by norm_num) else
    if v = 2 then pyFloat 1 (-52) (by norm_num) else if v = 3 then tiny else 0) (fun u v x hx => ?_) (by simp) hp
  · simp only [if_pos] at this
    exact absurd this (not_le.2 hlt)
  · have hup : ∀ a d : PyFloat, d.val ≤ a.val + x.val → d ≤ a + x := fun a d hd => Double.le_iff.2 (by
      rw [Double.val_add]; exact nearestEven.isRounding.lower _ _ d.2 hd)
    refine hup _ _ ?_
    have he := roundOps_edges hx
    simp only [List.mem_cons, List.not_mem_nil, or_false, Prod.mk.injEq] at he
    rcases he with ⟨rfl, rfl, rfl⟩ | ⟨rfl, rfl, rfl⟩ | ⟨rfl, rfl, rfl⟩ | ⟨rfl, rfl, rfl⟩ | ⟨rfl, rfl, rfl⟩ | ⟨rfl, rfl, rfl⟩ |
      ⟨rfl, rfl, rfl⟩ | ⟨rfl, rfl, rfl⟩ | ⟨rfl, rfl, rfl⟩ | ⟨rfl, rfl, rfl⟩ <;>
    norm_num only [if_true, if_false] <;> linarith

/-- The bounds of `C173_dijkstra_error` hold in this example, and say that the result 1 is nearly right. -/
example : ∃ D P, dijkstra (history roundOps) 0 = some (.ok (D, P)) ∧ ∃ c : PyFloat, Dict.get? D 4 = some (c : WithTop PyFloat) ∧
    (1 - (2 : ℝ)⁻¹ ^ 52) ^ 4 * next.val ≤ c.val := by
  obtain ⟨D, P, h1, h2, h3, -⟩ := C173_not_a_shortest_path_violation
  obtain ⟨D', P', k1, k2⟩ := C173_dijkstra_error roundOps roundOps_nonneg 0 (roundOps_verts 0 (by norm_num))
  rw [h1] at k1
  simp only [Option.some.injEq, Except.ok.injEq, Prod.mk.injEq] at k1
  obtain ⟨rfl, rfl⟩ := k1
  refine ⟨D, P, h1, one, h2, ?_⟩
  rcases k2 4 (roundOps_verts 4 (by norm_num)) with ⟨h, -⟩ | ⟨c, L, L', p, e1, e2, e3, -⟩
  · rw [h2] at h; simp at h
  · rw [h2] at e1
    simp only [Option.some.injEq, WithTop.coe_inj] at e1
    subst e1
    have : L = next.val := by
      obtain ⟨⟨p, hp⟩, hm⟩ := e2
      obtain ⟨⟨q, hq⟩, hm'⟩ := h3
      exact le_antisymm (hm _ _ hq) (hm' _ _ hp)
    rw [← this]
    exact e3

/-- A triangle with integral float weights. -/
noncomputable def integralOps : List (Op ℕ PyFloat) :=
  [Op.addEdges [(0, 1, pyFloat 1 40 (by norm_num)), (1, 2, pyFloat 3 0 (by norm_num)), (0, 2, pyFloat 1 45 (by norm_num))]]

/-- The hypotheses of `C173_integral_weights`. -/
example : Nonneg integralOps ∧ ∀ u v x, (toAbs (history integralOps)).weight u v = some x → ∃ n : ℤ, x.val = n := by
  have key : ∀ u v x, (toAbs (history integralOps)).weight u v = some x → ∃ n : ℕ, x.val = n := by
    intro u v x h
    change adj (history integralOps) u v = some x at h
    rw [adj] at h
    obtain ⟨N, hN, hx⟩ : ∃ N, Dict.get? (history integralOps) u = some N ∧ Dict.get? N v = some x := by
      cases e : Dict.get? (history integralOps) u with
      | none => rw [e] at h; simp at h
      | some N => rw [e] at h; exact ⟨N, rfl, h⟩
    have h1 := Dict.mem_of_get? hN
    have h2 := Dict.mem_of_get? hx
    rw [show history integralOps = [(0, [(1, pyFloat 1 40 (by norm_num)), (2, pyFloat 1 45 (by norm_num))]),
      (1, [(0, pyFloat 1 40 (by norm_num)), (2, pyFloat 3 0 (by norm_num))]),
      (2, [(1, pyFloat 3 0 (by norm_num)), (0, pyFloat 1 45 (by norm_num))])] from rfl] at h1
    simp only [List.mem_cons, List.not_mem_nil, or_false, Prod.mk.injEq] at h1
    have a1 : ∃ n : ℕ, (pyFloat 1 40 (by norm_num)).val = n := ⟨2 ^ 40, by simp only [pyFloat, Double.val]; norm_num⟩
    have a2 : ∃ n : ℕ, (pyFloat 1 45 (by norm_num)).val = n := ⟨2 ^ 45, by simp only [pyFloat, Double.val]; norm_num⟩
    have a3 : ∃ n : ℕ, (pyFloat 3 0 (by norm_num)).val = n := ⟨3, by simp only [pyFloat, Double.val]; norm_num⟩
    rcases h1 with ⟨-, rfl⟩ | ⟨-, rfl⟩ | ⟨-, rfl⟩ <;>
      simp only [List.mem_cons, List.not_mem_nil, or_false, Prod.mk.injEq] at h2 <;>
      rcases h2 with ⟨-, rfl⟩ | ⟨-, rfl⟩ <;> assumption
  refine ⟨fun u v x h => ?_, fun u v x h => ?_⟩
  · obtain ⟨n, hn⟩ := key u v x h
    exact Double.le_iff.2 (by rw [hn]; exact Nat.cast_nonneg n)
  · obtain ⟨n, hn⟩ := key u v x h
    exact ⟨n, by rw [hn]; norm_cast⟩

/-! ### Negative weights -/

/-- A path with a negative edge. -/
noncomputable def negOps : List (Op ℕ PyFloat) := [Op.addEdges [(0, 1, one), (1, 2, negative)]]

/-- C173, violation: `bellman_ford` does not raise although a negative edge can be reached (an undirected negative edge is
a negative cycle): the sums `1.0 - 2**-60` are rounded to 1. -/
theorem C173_negative_cycle_violation : ∃ D P, bellmanFord (history negOps) 0 = some (.ok (D, P)) ∧
    Dict.get? D 1 = some ((one : PyFloat) : WithTop PyFloat) ∧ Dict.get? D 2 = some ((one : PyFloat) : WithTop PyFloat) ∧
    (toAbs (history negOps)).weight 1 2 = some negative ∧ (toAbs (history negOps)).weight 2 1 = some negative ∧ negative.val < 0 := by
  have h : history negOps = [(0, [(1, one)]), (1, [(0, one), (2, negative)]), (2, [(1, negative)])] := rfl
  have e1 : ((0 : PyFloat) : WithTop PyFloat) + ((one : PyFloat) : WithTop PyFloat) = one := by
    rw [← WithTop.coe_add, zero_add_one]
  have e2 : ((one : PyFloat) : WithTop PyFloat) + ((negative : PyFloat) : WithTop PyFloat) = one := by
    rw [← WithTop.coe_add, one_add_negative]
  have e3 : ¬ ((one : PyFloat) : WithTop PyFloat) + ((one : PyFloat) : WithTop PyFloat) < ((0 : PyFloat) : WithTop PyFloat) := by
    rw [← WithTop.coe_add, WithTop.coe_lt_coe, not_lt]
    refine PathAdd.nonneg ?_ ?_ <;> exact Double.le_iff.2 (by rw [one_val, Double.val_zero]; norm_num)
  rw [WithTop.coe_zero] at e1 e3
  refine ⟨[(0, ((0 : PyFloat) : WithTop PyFloat)), (1, ((one : PyFloat) : WithTop PyFloat)), (2, ((one : PyFloat) : WithTop PyFloat))],
    [(0, none), (1, some 0), (2, some 1)], ?_, rfl, rfl, rfl, rfl, by rw [negative_val]; norm_num⟩
  rw [bellmanFord, h, if_neg (by simp [Dict.keys])]
  rw [bfLoop.eq_def]
  simp [Dict.get?, Dict.set, bfRelax, e1]
  rw [bfLoop.eq_def]
  simp [Dict.get?, Dict.set, bfRelax, e1, e2, e3]
  rw [bfLoop.eq_def]
  simp [Dict.get?, Dict.set, bfRelax, e2]
  rw [bfLoop.eq_def]

end Rosemary.Props
