import Verif.Lemmas.FloatFloyd
import Verif.Props.FloatSpanningTrees
import Verif.Props.FloatPathsViolations

/-!
# `floyd_warshall` with floating point weights (C177)

`floyd_warshall` adds computed distances to each other; it does not add one weight after the other as `dijkstra` does.
So the values are not the computed lengths of any walks, and the theorems of C173 do not apply.
-/

namespace Rosemary.Props

open Rosemary.Graph Rosemary.Paths Rosemary.Spec Rosemary.Floats

section floats

variable {V : Type} [LinearOrder V] {M : Mode}

theorem loopless_walk {A : V → V → Option ℝ} (hA : ∀ u v x, A u v = some x → 0 ≤ x) {u w : V} {q : List V} {c : ℝ}
    (hq : WalkOf A u q w c) : ∃ q' c', WalkOf (noLoop A) u q' w c' ∧ c' ≤ c := by
  induction hq with
  | start => exact ⟨_, _, WalkOf.start, le_refl _⟩
  | step _ hx ih =>
    rename_i q y w c x _
    obtain ⟨q', c', k1, k2⟩ := ih
    by_cases e : y = w
    · exact ⟨q', c', e ▸ k1, by have := hA _ _ _ hx; linarith⟩
    · exact ⟨_, _, WalkOf.step k1 (by rw [noLoop, if_neg e]; exact hx), by linarith⟩

theorem walk_of_loopless {A : V → V → Option ℝ} {u w : V} {q : List V} {c : ℝ} (hq : WalkOf (noLoop A) u q w c) : WalkOf A u q w c := by
  induction hq with
  | start => exact WalkOf.start
  | step _ hx ih => exact WalkOf.step ih (noLoop_eq hx).2

/-- The run with floats and the run with the exact weights. -/
theorem float_floyd (ops : List (Op V (Double M))) (hN : ∀ u v x, u ≠ v → (toAbs (history ops)).weight u v = some x → 0 ≤ x)
    {Q : (V → V → WithTop (Double M) × Option V) → (V → V → WithTop ℝ × Option V) → Prop}
    (hQ : ∀ f e u, Mem (history ops) u → Q f e → Q (Paths.T f u) (Paths.T e u))
    (q : Q (fw0 (history ops)) (fw0 (history (exactOps ops)))) :
    ∃ D f e, floydWarshall (history ops) = .ok D ∧ Rep (history ops) D f ∧
      FInv (history (exactOps ops)) (fun y => y ∈ Dict.keys (history (exactOps ops)) ∨ False) e ∧
      FloatInv (history ops) (numVertices (history ops)) f e ∧ Q f e := by
  have hA : adj (history (exactOps ops)) = Double.exactWeight (adj (history ops)) := exactOps_weight ops
  have hv : ∀ v, Mem (history (exactOps ops)) v ↔ Mem (history ops) v := fun v => by
    have := exactOps_verts ops
    exact (Set.ext_iff.1 this v)
  have hN1 : ∀ u v x, noLoop (adj (history ops)) u v = some x → 0 ≤ x := fun u v x hx => hN u v x (noLoop_eq hx).1 (noLoop_eq hx).2
  have hN' : ∀ u v x, noLoop (adj (history (exactOps ops))) u v = some x → 0 ≤ x := by
    intro u v x hx
    obtain ⟨h1, h2⟩ := noLoop_eq hx
    rw [hA, Double.exactWeight, Option.map_eq_some_iff] at h2
    obtain ⟨y, hy, rfl⟩ := h2
    exact hN u v y h1 hy
  obtain ⟨D, f, e, h1, h2, h3, h4, h5⟩ := float_outer (history_spec (exactOps ops)).1 hv hN1 hN' hQ (Dict.keys (history ops)) (fun _ h => h)
    (fun _ => False) 0 _ _ _ (rep_start (history_spec ops).1) (FInv.init _) (FloatInv.init hA hN1) q
  refine ⟨D, f, e, h1, h2, ?_, ?_, h5⟩
  · convert h3 using 1
    funext y
    have := hv y
    exact propext (or_congr this Iff.rfl)
  · rw [numVertices]
    rwa [Nat.zero_add, Dict.keys, List.length_map] at h4

theorem exact_distance (ops : List (Op V (Double M))) (hN : Nonneg ops) {e : V → V → WithTop ℝ × Option V}
    (he : FInv (history (exactOps ops)) (fun y => y ∈ Dict.keys (history (exactOps ops)) ∨ False) e) {u v : V}
    (hu : u ∈ (toAbs (history ops)).verts) (hv : v ∈ (toAbs (history ops)).verts) :
    IsDistance (Double.exactWeight (toAbs (history ops)).weight) u v (e u v).1 := by
  have hA : adj (history (exactOps ops)) = Double.exactWeight (toAbs (history ops)).weight := exactOps_weight ops
  have hA' : ∀ u v x, Double.exactWeight (toAbs (history ops)).weight u v = some x → (0 : ℝ) ≤ x := by
    intro u v x hx
    rw [Double.exactWeight, Option.map_eq_some_iff] at hx
    obtain ⟨y, hy, rfl⟩ := hx
    exact hN _ _ _ hy
  rw [← exactOps_verts] at hu hv
  have h := he.distance (history_spec (exactOps ops)).1 hu hv
  rw [hA] at h
  refine ⟨fun c hc => ⟨?_, fun q c' hq => ?_⟩, fun hd q c hq => ?_⟩
  · obtain ⟨p, hp⟩ := (h.1 c hc).1
    exact ⟨p, walk_of_loopless hp⟩
  · obtain ⟨q', c'', k1, k2⟩ := loopless_walk hA' hq
    exact ((h.1 c hc).2 q' c'' k1).trans k2
  · obtain ⟨q', c'', k1, k2⟩ := loopless_walk hA' hq
    exact h.2 hd q' c'' k1

/-- C177: with nonnegative float weights in a graph with `n` vertices, what `floyd_warshall` returns for a pair `u`, `v` is
`inf` without a link if and only if `v` cannot be reached; else it lies between `(1 - 2^-52)^n` and `(1 + 2^-52)^n` times
the exact distance `L`, and the links lead back to `u` along a path without repetitions; with `a = (1 - 2^-52)^n` and
`b = (1 + 2^-52)^n` the exact length `L'` of this path is at most `(1 + (n - 1)(b/a - 1))` times the returned value. -/
theorem C177_floyd_warshall_error (ops : List (Op V (Double M))) (hN : Nonneg ops) :
    ∃ D, floydWarshall (history ops) = .ok D ∧ ∀ u ∈ (toAbs (history ops)).verts, ∀ v ∈ (toAbs (history ops)).verts,
      (Dict.get? D (u, v) = some (⊤, none) ∧ (∀ p c, ¬ WalkOf (toAbs (history ops)).weight u p v c)) ∨
      ∃ (c : Double M) (y : Option V) (L L' : ℝ) (p : List V), Dict.get? D (u, v) = some ((c : WithTop (Double M)), y) ∧
        IsShortest (Double.exactWeight (toAbs (history ops)).weight) u v L ∧
        (1 - (2 : ℝ)⁻¹ ^ 52) ^ numVertices (history ops) * L ≤ c.val ∧
        c.val ≤ (1 + (2 : ℝ)⁻¹ ^ 52) ^ numVertices (history ops) * L ∧
        LinkPath (fun w => (Dict.get? D (u, w)).map Prod.snd) u p v ∧ p.Nodup ∧
        WalkOf (Double.exactWeight (toAbs (history ops)).weight) u p v L' ∧
        (1 - (2 : ℝ)⁻¹ ^ 52) ^ numVertices (history ops) * L' ≤ ((1 - (2 : ℝ)⁻¹ ^ 52) ^ numVertices (history ops) +
          (numVertices (history ops) - 1) * ((1 + (2 : ℝ)⁻¹ ^ 52) ^ numVertices (history ops) -
            (1 - (2 : ℝ)⁻¹ ^ 52) ^ numVertices (history ops))) * c.val := by
  obtain ⟨D, f, e, h1, h2, h3, h4, -⟩ := float_floyd ops (fun u v x _ hx => hN u v x hx) (Q := fun _ _ => True)
    (fun _ _ _ _ _ => trivial) trivial
  refine ⟨D, h1, fun u hu v hv => ?_⟩
  have hdist := exact_distance ops hN h3 hu hv
  rcases h4.close u v hu hv with ⟨k1, k2⟩ | ⟨c, L, k1, k2, k3⟩
  · left
    refine ⟨?_, fun p c hp => ?_⟩
    · rw [h2 u v hu hv]
      congr 1
      refine Prod.ext k1 ?_
      dsimp only
      cases hy : (f u v).2 with
      | none => rfl
      | some y =>
        obtain ⟨x, c, d, -, -, m, -⟩ := h4.pred u v y hu hv hy
        rw [k1] at m; simp at m
    · obtain ⟨L, hL, -⟩ := walk_exact hN hp
      exact hdist.2 k2 p L hL
  · right
    generalize hn : numVertices (history ops) = n at *
    have u0 := ulp_pos
    have u1 := ulp_lt
    set a : ℝ := (1 - ulp) ^ n with ha
    set b : ℝ := (1 + ulp) ^ n with hb
    have hab : a ≤ b := pow_le_pow_left₀ (by linarith) (by linarith) n
    have ha0 : 0 ≤ a := pow_nonneg (by linarith) n
    obtain ⟨p, L', m1, m2, m3⟩ := h4.links hu (P := fun w => (Dict.get? D (u, w)).map Prod.snd) (fun w hw => by rw [h2 u w hu hw]; rfl)
      (R := fun p L c => a * L ≤ (a + (p.length - 1) * (b - a)) * c.val) (by simp [Double.val_zero]) (by
        intro p L w y c d x hw hy hx hc hd hp hR
        obtain ⟨x', c', d', j1, j2, j3, j4, j5⟩ := h4.pred u w y hu hw hy
        rw [hx] at j1
        rw [hc] at j2
        rw [hd] at j3
        obtain rfl := Option.some.inj j1
        obtain rfl := WithTop.coe_injective j2
        obtain rfl := WithTop.coe_injective j3
        have hc0 := h4.nonneg hu (mem_of_adj (noLoop_eq hx).2) hc
        have hcd := Double.le_iff.1 j4
        have hpl : (0 : ℝ) ≤ (p.length : ℝ) - 1 := by
          have : 1 ≤ p.length := List.length_pos_iff.2 hp
          have : (1 : ℝ) ≤ p.length := by exact_mod_cast this
          linarith
        rw [List.length_append, List.length_singleton]
        push_cast
        have s1 : (p.length - 1) * (b - a) * c.val ≤ (p.length - 1) * (b - a) * d.val :=
          mul_le_mul_of_nonneg_left hcd (mul_nonneg hpl (by linarith))
        nlinarith) v hv c k1
    have hnd := link_nodup m1
    refine ⟨c, (f u v).2, L, L', p, ?_, hdist.1 L k2, k3.2.1, k3.2.2, m1, hnd, m2, m3.trans ?_⟩
    · rw [h2 u v hu hv, ← k1]
    · have hlen : p.length ≤ n := by
        obtain ⟨c', hc', -⟩ := walk_rounded hN m2
        rw [← hn]
        exact length_le_verts hnd (walk_in_verts hu hc')
      have hlen' : (p.length : ℝ) ≤ n := by exact_mod_cast hlen
      have hc0 := h4.nonneg hu hv k1
      refine mul_le_mul_of_nonneg_right ?_ hc0
      have : ((p.length : ℝ) - 1) * (b - a) ≤ ((n : ℝ) - 1) * (b - a) :=
        mul_le_mul_of_nonneg_right (by linarith) (by linarith)
      rw [ha, hb] at this ⊢
      simp only [ulp] at this ⊢
      linarith

/-- C177, in numbers: with at most 1000 vertices the returned values are the exact distances up to a relative error of
`10^-12`, and the links lead along a path that is longer than a shortest one by a factor of at most `1 + 10^-9`. -/
theorem C177_floyd_warshall_thousand (ops : List (Op V (Double M))) (hN : Nonneg ops) (hn : numVertices (history ops) ≤ 1000) :
    ∃ D, floydWarshall (history ops) = .ok D ∧ ∀ u ∈ (toAbs (history ops)).verts, ∀ v ∈ (toAbs (history ops)).verts, ∀ L,
      IsShortest (Double.exactWeight (toAbs (history ops)).weight) u v L →
      ∃ (c : Double M) (y : Option V) (L' : ℝ) (p : List V), Dict.get? D (u, v) = some ((c : WithTop (Double M)), y) ∧
        |c.val - L| ≤ 10⁻¹ ^ 12 * L ∧ LinkPath (fun w => (Dict.get? D (u, w)).map Prod.snd) u p v ∧
        WalkOf (Double.exactWeight (toAbs (history ops)).weight) u p v L' ∧ L' ≤ (1 + 10⁻¹ ^ 9) * L := by
  obtain ⟨D, h1, h2⟩ := C177_floyd_warshall_error ops hN
  refine ⟨D, h1, fun u hu v hv L hL => ?_⟩
  rcases h2 u hu v hv with ⟨-, h⟩ | ⟨c, y, L0, L', p, k1, k2, k3, k4, k5, -, k6, k7⟩
  · obtain ⟨⟨p, hp⟩, -⟩ := hL
    obtain ⟨c, hc, -⟩ := walk_rounded hN hp
    exact absurd hc (h p c)
  obtain rfl : L0 = L := by
    obtain ⟨⟨p, hp⟩, hm⟩ := hL
    obtain ⟨⟨q, hq⟩, hm'⟩ := k2
    exact le_antisymm (hm' _ _ hp) (hm _ _ hq)
  have hL0 : 0 ≤ L0 := by
    obtain ⟨⟨p, hp⟩, -⟩ := hL
    obtain ⟨c, -, hc, -⟩ := walk_rounded hN hp
    exact hc
  generalize numVertices (history ops) = n at *
  have a1 : (1 : ℝ) - 10⁻¹ ^ 12 / 4 ≤ (1 - (2 : ℝ)⁻¹ ^ 52) ^ n := by
    refine le_trans ?_ (pow_le_pow_of_le_one (by norm_num) (by norm_num) hn)
    refine le_trans ?_ (one_add_mul_le_pow (by norm_num : (-2 : ℝ) ≤ -(2 : ℝ)⁻¹ ^ 52) 1000 |>.trans (le_of_eq (by ring)))
    norm_num
  have a2 : (1 - (2 : ℝ)⁻¹ ^ 52) ^ n ≤ 1 := pow_le_one₀ (by norm_num) (by norm_num)
  have b1 : (1 + (2 : ℝ)⁻¹ ^ 52) ^ n ≤ 1 + 10⁻¹ ^ 12 / 3 := by
    have e : (1 + (2 : ℝ)⁻¹ ^ 52) ^ n * (1 - (2 : ℝ)⁻¹ ^ 52) ^ n ≤ 1 := by
      rw [← mul_pow]
      exact pow_le_one₀ (by norm_num) (by norm_num)
    have hb0 : 0 ≤ (1 + (2 : ℝ)⁻¹ ^ 52) ^ n := by positivity
    generalize (1 + (2 : ℝ)⁻¹ ^ 52) ^ n = b at *
    by_contra hc
    have hc := not_le.1 hc
    have e2 : b * (1 - 10⁻¹ ^ 12 / 4) ≤ 1 := (mul_le_mul_of_nonneg_left a1 hb0).trans e
    norm_num at e2 hc
    linarith
  have b2 : 1 ≤ (1 + (2 : ℝ)⁻¹ ^ 52) ^ n := one_le_pow₀ (by norm_num)
  have hn' : (n : ℝ) ≤ 1000 := by exact_mod_cast hn
  generalize (1 + (2 : ℝ)⁻¹ ^ 52) ^ n = b at *
  generalize (1 - (2 : ℝ)⁻¹ ^ 52) ^ n = a at *
  refine ⟨c, y, L', p, k1, ?_, k5, k6, ?_⟩
  · rw [abs_le]
    constructor <;> nlinarith
  · have hL' : 0 ≤ L' := by
      obtain ⟨c, -, hc, -⟩ := walk_rounded hN k6
      exact hc
    have hc0 : 0 ≤ c.val := le_trans (mul_nonneg (by norm_num at a1; linarith) hL0) k3
    have s1 : ((n : ℝ) - 1) * (b - a) ≤ 1000 * (10⁻¹ ^ 12 * (2 / 3)) := by
      have t1 : b - a ≤ 10⁻¹ ^ 12 * (2 / 3) := by norm_num at a1 b1 ⊢; linarith
      have t2 : 0 ≤ b - a := by linarith
      have t3 : ((n : ℝ) - 1) * (b - a) ≤ 1000 * (b - a) := mul_le_mul_of_nonneg_right (by linarith) t2
      linarith
    have s2 : a * L' ≤ (1 + 1000 * (10⁻¹ ^ 12 * (2 / 3))) * c.val := k7.trans (mul_le_mul_of_nonneg_right (by linarith) hc0)
    have s3 : (1 - 10⁻¹ ^ 12 / 4) * L' ≤ a * L' := mul_le_mul_of_nonneg_right a1 hL'
    have s4 : c.val ≤ (1 + 10⁻¹ ^ 12 / 3) * L0 := k4.trans (mul_le_mul_of_nonneg_right b1 hL0)
    norm_num at s2 s3 s4 ⊢
    linarith

/-- C177: if the weights are floats with integral values, distances below `2^53` are exact, and the links lead along
shortest paths. -/
theorem C177_integral_weights (ops : List (Op V (Double M))) (hN : Nonneg ops)
    (hI : ∀ u v x, (toAbs (history ops)).weight u v = some x → ∃ n : ℤ, x.val = n) :
    ∃ D, floydWarshall (history ops) = .ok D ∧ ∀ u ∈ (toAbs (history ops)).verts, ∀ v ∈ (toAbs (history ops)).verts, ∀ L : ℝ,
      IsShortest (Double.exactWeight (toAbs (history ops)).weight) u v L → L < 2 ^ 53 →
      ∃ (c : Double M) (y : Option V) (p : List V), Dict.get? D (u, v) = some ((c : WithTop (Double M)), y) ∧ c.val = L ∧
        LinkPath (fun w => (Dict.get? D (u, w)).map Prod.snd) u p v ∧
        WalkOf (Double.exactWeight (toAbs (history ops)).weight) u p v L := by
  have hN1 : ∀ u v x, noLoop (adj (history ops)) u v = some x → 0 ≤ x := fun u v x hx => hN u v x (noLoop_eq hx).2
  obtain ⟨D, f, e, h1, h2, h3, h4, h5⟩ := float_floyd ops (fun u v x _ hx => hN u v x hx) (Q := IntInv (history ops))
    (fun f e u hu h => h.round hN1 hu) (IntInv.init (exactOps_weight ops) hN1 (fun u v x hx => hI u v x (noLoop_eq hx).2))
  refine ⟨D, h1, fun u hu v hv L hL hb => ?_⟩
  have hdist := exact_distance ops hN h3 hu hv
  have heL : (e u v).1 = (L : WithTop ℝ) := distance_unique hdist ⟨fun c hc => by rw [← WithTop.coe_injective hc]; exact hL, by simp⟩
  rcases h5.int u v hu hv with ⟨-, k2⟩ | ⟨c, L0, k1, k2, k3⟩
  · rw [heL] at k2; simp at k2
  rw [heL] at k2
  obtain rfl := WithTop.coe_injective k2
  have hcL := k3.2.2.1 hb.le
  obtain ⟨p, L', m1, m2, m3⟩ := h4.links hu (P := fun w => (Dict.get? D (u, w)).map Prod.snd) (fun w hw => by rw [h2 u w hu hw]; rfl)
    (R := fun p L c => c.val < 2 ^ 53 → L ≤ c.val) (by intro _; rw [Double.val_zero]) (by
      intro p L w y c d x hw hy hx hc hd hp hR hb
      obtain ⟨x', c', d', j1, j2, j3, j4⟩ := h5.pred u w y hu hw hy
      rw [hx] at j1
      rw [hc] at j2
      rw [hd] at j3
      obtain rfl := Option.some.inj j1
      obtain rfl := WithTop.coe_injective j2
      obtain rfl := WithTop.coe_injective j3
      have := j4 hb
      have hx0 := Double.le_iff.1 (hN1 _ _ _ hx)
      rw [Double.val_zero] at hx0
      have := hR (by linarith)
      linarith) v hv c k1
  have hLL : L' = L := le_antisymm (by rw [← hcL]; exact m3 (by rw [hcL]; exact hb)) (hL.2 _ _ m2)
  exact ⟨c, (f u v).2, p, by rw [h2 u v hu hv, ← k1], hcL, m1, hLL ▸ m2⟩

/-- C177: `floyd_warshall` raises ValueError if and only if an edge between different vertices is negative, also with
floats (not so for `bellman_ford`, see C173). -/
theorem C177_raises (ops : List (Op V (Double M))) :
    ((∃ D, floydWarshall (history ops) = .ok D) ↔
      ∀ u v x, u ≠ v → (toAbs (history ops)).weight u v = some x → 0 ≤ x) ∧
    ((∃ D, floydWarshall (history ops) = .ok D) ∨ floydWarshall (history ops) = .error .valueError) := by
  by_cases h : ∀ u v x, u ≠ v → (toAbs (history ops)).weight u v = some x → 0 ≤ x
  · obtain ⟨D, f, e, h1, -⟩ := float_floyd ops h (Q := fun _ _ => True) (fun _ _ _ _ _ => trivial) trivial
    exact ⟨⟨fun _ => h, fun _ => ⟨D, h1⟩⟩, Or.inl ⟨D, h1⟩⟩
  · have h' := h
    push Not at h'
    obtain ⟨u, v, x, hne, hx, hlt⟩ := h'
    have hadd : ∀ a b c d : Double M, a ≤ b → c ≤ d → a + c ≤ b + d := by
      intro a b c d h1 h2
      rw [Double.le_iff, Double.val_add, Double.val_add]
      have h1 := Double.le_iff.1 h1
      have h2 := Double.le_iff.1 h2
      exact M.mono (by linarith)
    have hg := (history_spec ops).1
    have hu : Mem (history ops) u := mem_of_adj hx
    have hxs : adj (history ops) v u = some x := by rw [hg.symm]; exact hx
    have hv : Mem (history ops) v := mem_of_adj hxs
    have hstart : ∀ a b, a ≠ b → adj (history ops) a b = some x → (fw0 (history ops) a b).1 ≤ (x : WithTop (Double M)) := by
      intro a b hab hx
      rcases fw0_cases (history ops) a b with ⟨e, -⟩ | ⟨-, a2, -⟩ | ⟨y, -, a2, a3⟩
      · exact absurd e hab
      · rw [hx] at a2; simp at a2
      · rw [hx] at a2
        rw [a3, Option.some.inj a2]
    have key : floydWarshall (history ops) = .error .valueError :=
      fwOuter_negative_edge hadd hg (a := u) (b := v) (x := x) (by rw [noLoop, if_neg hne]; exact hx) hlt (Dict.keys (history ops))
        (fun _ h => h) hu hv _ _ (rep_start hg) (fun w _ => by
          rcases fw0_cases (history ops) w w with ⟨-, e⟩ | ⟨h1, -⟩ | ⟨x, h1, -⟩
          · rw [e]
          · exact absurd rfl h1
          · exact absurd rfl h1) (hstart u v hne hx) (hstart v u (Ne.symm hne) hxs)
    exact ⟨⟨fun ⟨D, hD⟩ => by rw [key] at hD; simp at hD, fun h2 => absurd h2 h⟩, Or.inr key⟩

/-- C177: the values for `u`, `v` and `v`, `u` are the same float (not so for `dijkstra`, see C173), and the one for
`u`, `u` is 0 without a link. -/
theorem C177_symmetric (ops : List (Op V (Double M))) (D : Dict (V × V) (WithTop (Double M) × Option V))
    (h : floydWarshall (history ops) = .ok D) (u v : V) (hu : u ∈ (toAbs (history ops)).verts)
    (hv : v ∈ (toAbs (history ops)).verts) :
    (Dict.get? D (u, v)).map Prod.fst = (Dict.get? D (v, u)).map Prod.fst ∧ Dict.get? D (u, u) = some (0, none) := by
  have hc : ∀ a b : WithTop (Double M), a + b = b + a := by
    intro a b
    cases a with
    | top => rw [WithTop.top_add, WithTop.add_top]
    | coe a =>
      cases b with
      | top => rw [WithTop.top_add, WithTop.add_top]
      | coe b =>
        rw [← WithTop.coe_add, ← WithTop.coe_add]
        congr 1
        refine Subtype.ext ?_
        change M.rnd (a.val + b.val) = M.rnd (b.val + a.val)
        rw [add_comm]
  obtain ⟨D', f, e, h1, h2, h3, h4, h5⟩ := float_floyd ops ((C177_raises ops).1.1 ⟨D, h⟩)
    (Q := fun f _ => ∀ v w, (f v w).1 = (f w v).1)
    (fun f e u hu h v w => by rw [T_fst, T_fst, h v w, hc, h v u, h u w]) (fun v w => by
      rcases fw0_cases (history ops) v w with ⟨rfl, -⟩ | ⟨a1, a2, a3⟩ | ⟨x, a1, a2, a3⟩
      · rfl
      · rw [(history_spec ops).1.symm] at a2
        rcases fw0_cases (history ops) w v with ⟨rfl, -⟩ | ⟨-, -, b3⟩ | ⟨x, -, b2, -⟩
        · rfl
        · rw [a3, b3]
        · rw [a2] at b2; simp at b2
      · rw [(history_spec ops).1.symm] at a2
        rcases fw0_cases (history ops) w v with ⟨rfl, -⟩ | ⟨-, b2, -⟩ | ⟨y, -, b2, b3⟩
        · rfl
        · rw [a2] at b2; simp at b2
        · rw [a2] at b2
          rw [a3, b3, Option.some.inj b2])
  rw [h1] at h
  injection h with h
  subst h
  rw [h2 u v hu hv, h2 v u hv hu, h2 u u hu hu, h4.diag u hu]
  exact ⟨by rw [Option.map_some, Option.map_some, h5 u v], rfl⟩

end floats

/-- C177, violation: `floyd_warshall` and `dijkstra` return different distances for Python's floats. -/
theorem C177_differs_from_dijkstra_violation : ∃ D D0 P0 D4 P4, floydWarshall (history roundOps) = .ok D ∧
    dijkstra (history roundOps) 0 = some (.ok (D0, P0)) ∧ dijkstra (history roundOps) 4 = some (.ok (D4, P4)) ∧
    ((Dict.get? D (0, 4)).map Prod.fst ≠ Dict.get? D0 4 ∨ (Dict.get? D (4, 0)).map Prod.fst ≠ Dict.get? D4 0) := by
  obtain ⟨D0, P0, D4, P4, h1, h2, h3⟩ := C173_symmetry_violation
  obtain ⟨D, hD, -⟩ := C177_floyd_warshall_error roundOps roundOps_nonneg
  have hs := (C177_symmetric roundOps D hD 0 4 (roundOps_verts 0 (by norm_num)) (roundOps_verts 4 (by norm_num))).1
  refine ⟨D, D0, P0, D4, P4, hD, h1, h2, ?_⟩
  by_contra hc
  push Not at hc
  exact h3 (by rw [← hc.1, ← hc.2, hs])

/-- The hypotheses of the error bounds hold for a graph in which rounding makes a difference, and the bound of
`C177_floyd_warshall_thousand` applies to it. -/
example : Nonneg roundOps ∧ numVertices (history roundOps) = 5 ∧ ∃ D, floydWarshall (history roundOps) = .ok D ∧
    ∃ (c : PyFloat) (y : Option ℕ), Dict.get? D (0, 4) = some ((c : WithTop PyFloat), y) ∧ |c.val - next.val| ≤ 10⁻¹ ^ 12 * next.val := by
  have hn : numVertices (history roundOps) = 5 := by rw [roundOps_history]; rfl
  refine ⟨roundOps_nonneg, hn, ?_⟩
  obtain ⟨D, h1, h2⟩ := C177_floyd_warshall_thousand roundOps roundOps_nonneg (by rw [hn]; norm_num)
  obtain ⟨_, _, -, -, hL, -⟩ := C173_not_a_shortest_path_violation
  obtain ⟨c, y, -, -, k1, k2, -⟩ := h2 0 (roundOps_verts 0 (by norm_num)) 4 (roundOps_verts 4 (by norm_num)) _ hL
  exact ⟨D, h1, c, y, k1, k2⟩

/-- A negative edge: `bellman_ford` returns here (`C173_negative_cycle_violation`), `floyd_warshall` raises. -/
example : floydWarshall (history negOps) = .error .valueError := by
  rcases (C177_raises negOps).2 with h | h
  · obtain ⟨_, _, -, -, -, hw, -, hneg⟩ := C173_negative_cycle_violation
    have := (C177_raises negOps).1.1 h 1 2 negative (by norm_num) hw
    have := Double.le_iff.1 this
    rw [Double.val_zero] at this
    linarith
  · exact h

end Rosemary.Props
