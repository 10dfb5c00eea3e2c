import Verif.Props.FloatPathsViolations
import Verif.Lemmas.Bidirectional

/-!
# `dijkstra_bidirectional` with floating point weights (C186)

Both searches round, in opposite directions, and the two sums of a candidate are rounded as well.
-/

namespace Rosemary.Props

open Rosemary.Graph Rosemary.Paths Rosemary.Spec Rosemary.Floats

section floats

variable {V : Type} [LinearOrder V] {M : Mode}

theorem double_add_comm (a b : Double M) : a + b = b + a :=
  Subtype.ext (by change M.rnd (a.val + b.val) = M.rnd (b.val + a.val); rw [add_comm])

theorem double_add_zero (a : Double M) : a + 0 = a :=
  Subtype.ext (by change M.rnd (a.val + 0) = a.val; rw [add_zero]; exact M.exact _ a.2)

/-- The rounded sum of two rounded lengths. -/
theorem close_add {k n : ℕ} {L c L' c' : ℝ} (h : Close k L c) (h' : Close n L' c') (hn : n ≤ k) :
    Close (k + 1) (L + L') (M.rnd (c + c')) := by
  obtain ⟨h0, h1, h2⟩ := h
  obtain ⟨h0', h1', h2'⟩ := close_mono hn h'
  have u0 := ulp_pos
  have u1 := ulp_lt
  have p1 : 0 ≤ (1 - ulp) ^ k := pow_nonneg (by linarith) k
  have hc : 0 ≤ c := (mul_nonneg p1 h0).trans h1
  have hc' : 0 ≤ c' := (mul_nonneg p1 h0').trans h1'
  obtain ⟨e1, e2⟩ := rnd_error M (y := c + c') (by linarith)
  refine ⟨by linarith, ?_, ?_⟩
  · refine le_trans ?_ e1
    rw [pow_succ', mul_assoc]
    exact mul_le_mul_of_nonneg_left (by linarith) (by linarith)
  · refine e2.trans ?_
    rw [pow_succ', mul_assoc]
    exact mul_le_mul_of_nonneg_left (by linarith) (by linarith)

theorem intClose_add {L c L' c' : ℝ} (h : IntClose L c) (h' : IntClose L' c') : IntClose (L + L') (M.rnd (c + c')) := by
  obtain ⟨h0, ⟨n, rfl⟩, h2, h3⟩ := h
  obtain ⟨h0', ⟨m, rfl⟩, h2', h3'⟩ := h'
  refine ⟨by linarith, ⟨n + m, by push_cast; rfl⟩, fun h => ?_, fun h => ?_⟩
  · rw [h2 (by linarith), h2' (by linarith), ← Int.cast_add]
    refine M.exact _ (isDouble_int _ ?_)
    rw [← Int.cast_add] at h
    have h' : n + m ≤ 2 ^ 53 := by exact_mod_cast h
    have a0 : 0 ≤ n := by exact_mod_cast h0
    have b0 : 0 ≤ m := by exact_mod_cast h0'
    rw [abs_of_nonneg (by omega)]; exact h'
  · refine M.isRounding.lower _ _ ?_ ?_
    · exact ⟨2 ^ 53, 0, by norm_num, by norm_num⟩
    · have c0 : ∀ {x y : ℝ}, 0 ≤ x → (x ≤ 2 ^ 53 → y = x) → (2 ^ 53 ≤ x → 2 ^ 53 ≤ y) → 0 ≤ y := by
        intro x y hx e1 e2
        rcases le_total x (2 ^ 53) with hc | hc
        · rw [e1 hc]; exact hx
        · have := e2 hc; linarith
      have hc := c0 h0 h2 h3
      have hc' := c0 h0' h2' h3'
      rcases le_total (n : ℝ) (2 ^ 53) with a | a
      · rcases le_total (m : ℝ) (2 ^ 53) with b | b
        · rw [h2 a, h2' b]; exact h
        · have := h3' b; linarith
      · have := h3 a; linarith

/-- What the two searches compute, for a closeness `R k L c` of exact and rounded lengths that the sums respect. -/
theorem float_bidirectional (ops : List (Op V (Double M))) (hN : Nonneg ops) {R : ℕ → ℝ → ℝ → Prop} {n : ℕ}
    (hR : ∀ s ∈ (toAbs (history ops)).verts, ∀ v p c, p.Nodup → WalkOf (toAbs (history ops)).weight s p v c →
      ∃ L, WalkOf (Double.exactWeight (toAbs (history ops)).weight) s p v L ∧ R n L c.val)
    (hR' : ∀ s ∈ (toAbs (history ops)).verts, ∀ v L, IsShortest (Double.exactWeight (toAbs (history ops)).weight) s v L →
      ∃ p c, WalkOf (toAbs (history ops)).weight s p v c ∧ R n L c.val)
    (hx : ∀ k L c u v x, R k L c → (toAbs (history ops)).weight u v = some x → R (k + 1) (L + x.val) (M.rnd (c + x.val)))
    (hadd : ∀ k L c L' c', R k L c → R n L' c' → n ≤ k → R (k + 1) (L + L') (M.rnd (c + c')))
    (hmono : ∀ k L c, R k L c → R (k + 1) L c)
    (s t : V) (hs : s ∈ (toAbs (history ops)).verts) (ht : t ∈ (toAbs (history ops)).verts) (hst : s ≠ t) :
    (dijkstraBidirectional (history ops) s t = some (.ok .bareInf) ∧ ∀ p c, ¬ WalkOf (toAbs (history ops)).weight s p t c) ∨
    ∃ (c : Double M) (L L' c' : ℝ) (p : List V),
      dijkstraBidirectional (history ops) s t = some (.ok (.pair (c : WithTop (Double M)) p)) ∧
      IsShortest (Double.exactWeight (toAbs (history ops)).weight) s t L ∧
      WalkOf (Double.exactWeight (toAbs (history ops)).weight) s p t L' ∧ R (n + 2) L' c.val ∧ R (n + 2) L c' ∧ c.val ≤ c' := by
  have hg := (history_spec ops).1
  have hsym : ∀ u v, Double.exactWeight (toAbs (history ops)).weight u v = Double.exactWeight (toAbs (history ops)).weight v u := by
    intro u v
    change (adj (history ops) u v).map _ = (adj (history ops) v u).map _
    rw [hg.symm]
  have hA' : ∀ u v x, Double.exactWeight (toAbs (history ops)).weight u v = some x → (0 : ℝ) ≤ x := by
    intro u v x hx
    rw [Double.exactWeight, Option.map_eq_some_iff] at hx
    obtain ⟨y, hy, rfl⟩ := hx
    exact hN _ _ _ hy
  have hex : ∀ {r : V}, r ∈ (toAbs (history ops)).verts → ∀ {v p L}, WalkOf (Double.exactWeight (toAbs (history ops)).weight) r p v L →
      ∃ L, IsShortest (Double.exactWeight (toAbs (history ops)).weight) r v L := by
    intro r hr v p L hp
    refine exists_shortest hA' (Dict.keys (history ops)) (fun q w d hq => ?_) hp
    obtain ⟨c, hc, -⟩ := walk_rounded hN hq
    exact walk_in_verts hr hc
  rcases bidirectional_weak hg hN double_add_comm double_add_zero hs ht hst with
    ⟨c, p, h1, ⟨u, v, q, q', a, b, x, w1, w2, d1, d2, hx1, rfl, rfl⟩, F, hFs, hFt, hF⟩ | h
  swap
  · exact Or.inl h
  right
  obtain ⟨La, a1, a2⟩ := hR s hs _ _ _ d1 w1
  obtain ⟨Lb, b1, b2⟩ := hR t ht _ _ _ d2 w2
  have hw := walk_append hsym b1 a1 (x := x.val) (by
    change (adj (history ops) u v).map _ = _
    rw [hx1]; rfl)
  obtain ⟨L, hL⟩ := hex hs hw
  have hlow := hadd _ _ _ _ _ (hx _ _ _ _ _ _ a2 hx1) b2 (Nat.le_succ n)
  suffices hup : ∃ c', R (n + 2) L c' ∧ (a + x + b).val ≤ c' by
    obtain ⟨c', k1, k2⟩ := hup
    exact ⟨a + x + b, L, _, c', _, h1, hL, hw, hlow, k1, k2⟩
  by_cases ht' : F t
  · obtain ⟨d, hd, hle⟩ := hFt ht'
    obtain ⟨p, c', k1, k2⟩ := hR' s hs t L hL
    exact ⟨c'.val, hmono _ _ _ (hmono _ _ _ k2), Double.le_iff.1 (hle.trans (hd.2 _ _ k1))⟩
  · obtain ⟨⟨p, hp⟩, hmin⟩ := hL
    obtain ⟨p1, y, c1, w, z, r, c2, k1, k2, k3, k4, k5, k6⟩ := walk_leave hsym hFs hp ht'
    obtain ⟨w', hw', rfl⟩ : ∃ w', adj (history ops) y z = some w' ∧ w'.val = w := by
      rw [Double.exactWeight, Option.map_eq_some_iff] at k3; exact k3
    -- the parts of a shortest path are shortest
    have m1 : IsShortest (Double.exactWeight (toAbs (history ops)).weight) s y c1 := ⟨⟨_, k1⟩, fun q d hq => by
      have := hmin _ _ (walk_append hsym k5 hq k3); linarith⟩
    have m2 : IsShortest (Double.exactWeight (toAbs (history ops)).weight) t z c2 := ⟨⟨_, k5⟩, fun q d hq => by
      have := hmin _ _ (walk_append hsym hq k1 k3); linarith⟩
    have m3 : IsShortest (Double.exactWeight (toAbs (history ops)).weight) s z (c1 + w'.val) := ⟨⟨_, .step k1 k3⟩, fun q d hq => by
      cases k5 with
      | start => have := hmin _ _ hq; linarith
      | step k5 hx5 =>
        have := hmin _ _ (walk_append hsym k5 hq (by rw [hsym]; exact hx5)); linarith⟩
    obtain ⟨r', e', i1, i2⟩ := hR' t ht z c2 m2
    obtain ⟨da, db, hh⟩ := hF y z w' r' e' k2 k4 hw' i1
    rcases hh with ⟨j1, j2, j3⟩ | ⟨j1, j2, j3⟩
    · obtain ⟨o, e, o1, o2⟩ := hR' s hs y c1 m1
      refine ⟨_, k6 ▸ hadd _ _ _ _ _ (hx _ _ _ _ _ _ o2 hw') i2 (Nat.le_succ n), (Double.le_iff.1 j3).trans ?_⟩
      rw [Double.val_add]
      refine M.mono (add_le_add ?_ (Double.le_iff.1 (j2.2 _ _ i1)))
      rw [Double.val_add]
      exact M.mono (add_le_add (Double.le_iff.1 (j1.2 _ _ o1)) le_rfl)
    · obtain ⟨o, e, o1, o2⟩ := hR' s hs z _ m3
      refine ⟨_, k6 ▸ hmono _ _ _ (hadd _ _ _ _ _ o2 i2 le_rfl), (Double.le_iff.1 j3).trans ?_⟩
      rw [Double.val_add]
      exact M.mono (add_le_add (Double.le_iff.1 (j1.2 _ _ o1)) (Double.le_iff.1 (j2.2 _ _ i1)))

/-- C186: with nonnegative float weights in a graph with `n` vertices, `dijkstra_bidirectional` for different vertices
returns the bare `inf` if and only if there is no path; else the length lies between `(1 - 2^-52)^(n+1)` and
`(1 + 2^-52)^(n+1)` times the exact distance `L`, and the path leads from `s` to `t` and its exact length `L'` is at most
`((1 + 2^-52)/(1 - 2^-52))^(n+1)` times `L`. -/
theorem C186_bidirectional_error (ops : List (Op V (Double M))) (hN : Nonneg ops) (s t : V)
    (hs : s ∈ (toAbs (history ops)).verts) (ht : t ∈ (toAbs (history ops)).verts) (hst : s ≠ t) :
    (dijkstraBidirectional (history ops) s t = some (.ok .bareInf) ∧ ∀ p c, ¬ WalkOf (toAbs (history ops)).weight s p t c) ∨
    ∃ (c : Double M) (L L' : ℝ) (p : List V),
      dijkstraBidirectional (history ops) s t = some (.ok (.pair (c : WithTop (Double M)) p)) ∧
      IsShortest (Double.exactWeight (toAbs (history ops)).weight) s t L ∧
      (1 - (2 : ℝ)⁻¹ ^ 52) ^ (numVertices (history ops) + 1) * L ≤ c.val ∧
      c.val ≤ (1 + (2 : ℝ)⁻¹ ^ 52) ^ (numVertices (history ops) + 1) * L ∧
      WalkOf (Double.exactWeight (toAbs (history ops)).weight) s p t L' ∧
      (1 - (2 : ℝ)⁻¹ ^ 52) ^ (numVertices (history ops) + 1) * L' ≤ c.val := by
  have hlen : ∀ {q : List V}, q.Nodup → (∀ v ∈ q, v ∈ (toAbs (history ops)).verts) →
      q.length - 1 ≤ numVertices (history ops) - 1 := fun hq h => Nat.sub_le_sub_right (length_le_verts hq h) 1
  have hA' : ∀ u v x, Double.exactWeight (toAbs (history ops)).weight u v = some x → (0 : ℝ) ≤ x := by
    intro u v x hx
    rw [Double.exactWeight, Option.map_eq_some_iff] at hx
    obtain ⟨y, hy, rfl⟩ := hx
    exact hN _ _ _ hy
  have h1 : 1 ≤ numVertices (history ops) := length_le_verts (p := [s]) (by simp) (by simpa using hs)
  rcases float_bidirectional ops hN (R := Close) (n := numVertices (history ops) - 1)
    (fun s hs v p c hp hw => by
      obtain ⟨L, k1, k2⟩ := walk_exact hN hw
      exact ⟨L, k1, close_mono (hlen hp (walk_in_verts hs hw)) k2⟩)
    (fun s hs v L hL => by
      obtain ⟨⟨q, hq⟩, hLmin⟩ := hL
      obtain ⟨q', d, j1, j2, j3⟩ := walk_shorten hA' hq
      obtain rfl : d = L := le_antisymm j3 (hLmin _ _ j1)
      obtain ⟨c', i1, i2⟩ := walk_rounded hN j1
      exact ⟨q', c', i1, close_mono (hlen j2 (walk_in_verts hs i1)) i2⟩)
    (fun k L c u v x h hx => close_step h (Double.le_iff.1 (hN _ _ _ hx)))
    (fun k L c L' c' h h' hk => close_add h h' hk) (fun k L c h => close_mono (Nat.le_succ k) h) s t hs ht hst with h | h
  · exact Or.inl h
  · obtain ⟨c, L, L', c', p, k1, k2, k3, k4, k5, k6⟩ := h
    rw [show numVertices (history ops) - 1 + 2 = numVertices (history ops) + 1 by omega] at k4 k5
    refine Or.inr ⟨c, L, L', p, k1, k2, ?_, k6.trans k5.2.2, k3, k4.2.1⟩
    refine le_trans (mul_le_mul_of_nonneg_left (k2.2 _ _ k3) ?_) k4.2.1
    exact pow_nonneg (by have := ulp_lt; rw [ulp] at this; linarith) _

/-- C186: if the weights are floats with integral values, a distance below `2^53` is returned exactly, with a shortest
path. -/
theorem C186_integral_weights (ops : List (Op V (Double M))) (hN : Nonneg ops) (s t : V)
    (hs : s ∈ (toAbs (history ops)).verts) (ht : t ∈ (toAbs (history ops)).verts) (hst : s ≠ t)
    (hI : ∀ u v x, (toAbs (history ops)).weight u v = some x → ∃ n : ℤ, x.val = n) (L : ℝ)
    (hL : IsShortest (Double.exactWeight (toAbs (history ops)).weight) s t L) (hb : L < 2 ^ 53) :
    ∃ (c : Double M) (p : List V), dijkstraBidirectional (history ops) s t = some (.ok (.pair (c : WithTop (Double M)) p)) ∧
      c.val = L ∧ WalkOf (Double.exactWeight (toAbs (history ops)).weight) s p t L := by
  rcases float_bidirectional ops hN (R := fun _ => IntClose) (n := 0)
    (fun s hs v p c hp hw => walk_exact_int hN hI hw)
    (fun s hs v L hL => by
      obtain ⟨⟨q, hq⟩, -⟩ := hL
      exact ⟨q, walk_rounded_int hN hI hq⟩)
    (fun k L c u v x h hx => intClose_step h (Double.le_iff.1 (hN _ _ _ hx)) (hI _ _ _ hx))
    (fun k L c L' c' h h' hk => intClose_add h h') (fun k L c h => h) s t hs ht hst with h | h
  · obtain ⟨⟨q, hq⟩, -⟩ := hL
    obtain ⟨c, hc, -⟩ := walk_rounded hN hq
    exact absurd hc (h.2 _ _)
  · obtain ⟨c, L0, L', c', p, k1, k2, k3, k4, k5, k6⟩ := h
    obtain rfl : L0 = L := by
      obtain ⟨⟨q, hq⟩, hm⟩ := k2
      obtain ⟨⟨q', hq'⟩, hm'⟩ := hL
      exact le_antisymm (hm _ _ hq') (hm' _ _ hq)
    have e1 : c.val ≤ L0 := by rw [← k5.2.2.1 hb.le]; exact k6
    have e2 := hL.2 _ _ k3
    have e3 : L' ≤ 2 ^ 53 := by
      by_contra hc
      have h5 := k4.2.2.2 (not_le.1 hc).le
      linarith
    have e4 := k4.2.2.1 e3
    have e5 : L' = L0 := le_antisymm (e4 ▸ e1) e2
    exact ⟨c, p, k1, by rw [e4, e5], e5 ▸ k3⟩

/-- C186: in a graph with at most 999 vertices the relative error of the length is at most `10^-12`, and the path is longer
than a shortest one by at most a factor of `1 + 10^-12`. -/
theorem C186_bidirectional_thousand (ops : List (Op V (Double M))) (hN : Nonneg ops) (hn : numVertices (history ops) + 1 ≤ 1000)
    (s t : V) (hs : s ∈ (toAbs (history ops)).verts) (ht : t ∈ (toAbs (history ops)).verts) (hst : s ≠ t) (L : ℝ)
    (hL : IsShortest (Double.exactWeight (toAbs (history ops)).weight) s t L) :
    ∃ (c : Double M) (L' : ℝ) (p : List V),
      dijkstraBidirectional (history ops) s t = some (.ok (.pair (c : WithTop (Double M)) p)) ∧ |c.val - L| ≤ 10⁻¹ ^ 12 * L ∧
      WalkOf (Double.exactWeight (toAbs (history ops)).weight) s p t L' ∧ L' ≤ (1 + 10⁻¹ ^ 12) * L := by
  have hL0 : 0 ≤ L := by
    obtain ⟨⟨p, hp⟩, -⟩ := hL
    obtain ⟨c, -, hc, -⟩ := walk_rounded hN hp
    exact hc
  rcases C186_bidirectional_error ops hN s t hs ht hst with ⟨-, h⟩ | ⟨c, L0, L', p, k1, k2, k3, k4, k5, k6⟩
  · obtain ⟨⟨p, hp⟩, -⟩ := hL
    obtain ⟨c, hc, -⟩ := walk_rounded hN hp
    exact absurd hc (h p c)
  obtain rfl : L0 = L := by
    obtain ⟨⟨p, hp⟩, hm⟩ := hL
    obtain ⟨⟨q, hq⟩, hm'⟩ := k2
    exact le_antisymm (hm' _ _ hp) (hm _ _ hq)
  have hL' := k2.2 _ _ k5
  generalize numVertices (history ops) + 1 = n at *
  have a1 : (1 : ℝ) - 10⁻¹ ^ 12 / 4 ≤ (1 - (2 : ℝ)⁻¹ ^ 52) ^ n := by
    refine le_trans ?_ (pow_le_pow_of_le_one (by norm_num) (by norm_num) hn)
    refine le_trans ?_ (one_add_mul_le_pow (by norm_num : (-2 : ℝ) ≤ -(2 : ℝ)⁻¹ ^ 52) 1000 |>.trans (le_of_eq (by ring)))
    norm_num
  have b1 : (1 + (2 : ℝ)⁻¹ ^ 52) ^ n ≤ 1 + 10⁻¹ ^ 12 / 3 := by
    have e : (1 + (2 : ℝ)⁻¹ ^ 52) ^ n * (1 - (2 : ℝ)⁻¹ ^ 52) ^ n ≤ 1 := by
      rw [← mul_pow]
      exact pow_le_one₀ (by norm_num) (by norm_num)
    have hb0 : 0 ≤ (1 + (2 : ℝ)⁻¹ ^ 52) ^ n := by positivity
    generalize (1 + (2 : ℝ)⁻¹ ^ 52) ^ n = b at *
    by_contra hc
    have hc := not_le.1 hc
    have e2 : b * (1 - 10⁻¹ ^ 12 / 4) ≤ 1 := (mul_le_mul_of_nonneg_left a1 hb0).trans e
    norm_num at e2 hc
    linarith
  generalize (1 + (2 : ℝ)⁻¹ ^ 52) ^ n = b at *
  generalize (1 - (2 : ℝ)⁻¹ ^ 52) ^ n = a at *
  have s1 : (1 - 10⁻¹ ^ 12 / 4) * L0 ≤ a * L0 := mul_le_mul_of_nonneg_right a1 hL0
  have s2 : b * L0 ≤ (1 + 10⁻¹ ^ 12 / 3) * L0 := mul_le_mul_of_nonneg_right b1 hL0
  have s3 : (1 - 10⁻¹ ^ 12 / 4) * L' ≤ a * L' := mul_le_mul_of_nonneg_right a1 (hL0.trans hL')
  refine ⟨c, L', p, k1, ?_, k5, ?_⟩
  · norm_num at s1 s2 ⊢
    rw [abs_le]
    constructor <;> linarith
  · norm_num at s2 s3 ⊢
    linarith

/-- C186: for `s = t` the length is `inf` and the path is empty, also with floats, although `[s]` is a path of length 0
(without a loop at `s`). -/
theorem C186_same_vertex_violation (ops : List (Op V (Double M))) (hN : Nonneg ops) (s : V) (hs : s ∈ (toAbs (history ops)).verts)
    (h0 : (toAbs (history ops)).weight s s = none) :
    dijkstraBidirectional (history ops) s s = some (.ok (.pair ⊤ [])) ∧ WalkOf (toAbs (history ops)).weight s [s] s 0 :=
  ⟨bidirectional_same (history_spec ops).1 hN hs h0, .start⟩

end floats

section generic
variable {W : Type} [Add W] [Zero W] [LinearOrder W] [PathAdd W]

/-- The path 0-1-2-3-4. -/
def fourOps (a b c d : W) : List (Op ℕ W) := [Op.addEdges [(0, 1, a), (1, 2, b), (2, 3, c), (3, 4, d)]]

omit [Add W] [Zero W] [LinearOrder W] [PathAdd W] in
theorem fourOps_history (a b c d : W) : history (fourOps a b c d) =
    [(0, [(1, a)]), (1, [(0, a), (2, b)]), (2, [(1, b), (3, c)]), (3, [(2, c), (4, d)]), (4, [(3, d)])] := rfl

theorem fourOps_iterator (a b c d : W) (ha : 0 ≤ a) (hb : 0 ≤ b) (hc : 0 ≤ c) (hd : 0 ≤ d) :
    dijkstraIterator (history (fourOps a b c d)) 0 = some (.ok [(0, 0, [0]), (1, 0 + a, [0, 1]), (2, 0 + a + b, [0, 1, 2]),
      (3, 0 + a + b + c, [0, 1, 2, 3]), (4, 0 + a + b + c + d, [0, 1, 2, 3, 4])]) := by
  rw [fourOps_history, dijkstraIterator, if_neg (by simp [Dict.keys])]
  have i1 := PathAdd.infl (0 : W) a ha
  have n1 : ¬ (0 + a + a : W) < 0 := not_lt.2 (i1.trans (PathAdd.infl _ a ha))
  have n2 : ¬ (0 + a + b + b : W) < 0 + a := not_lt.2 ((PathAdd.infl _ b hb).trans (PathAdd.infl _ b hb))
  have n3 : ¬ (0 + a + b + c + c : W) < 0 + a + b := not_lt.2 ((PathAdd.infl _ c hc).trans (PathAdd.infl _ c hc))
  have n4 : ¬ (0 + a + b + c + d + d : W) < 0 + a + b + c := not_lt.2 ((PathAdd.infl _ d hd).trans (PathAdd.infl _ d hd))
  iterate 6
    rw [iteratorLoop.eq_def]
    simp [popMin, Dict.get?, Dict.set, relaxPath, WithTop.coe_lt_coe, WithTop.coe_lt_top, n1, n2, n3, n4, -WithTop.coe_add, -WithTop.coe_zero]

theorem fourOps_iterator_back (a b c d : W) (ha : 0 ≤ a) (hb : 0 ≤ b) (hc : 0 ≤ c) (hd : 0 ≤ d) :
    dijkstraIterator (history (fourOps a b c d)) 4 = some (.ok [(4, 0, [4]), (3, 0 + d, [4, 3]), (2, 0 + d + c, [4, 3, 2]),
      (1, 0 + d + c + b, [4, 3, 2, 1]), (0, 0 + d + c + b + a, [4, 3, 2, 1, 0])]) := by
  rw [fourOps_history, dijkstraIterator, if_neg (by simp [Dict.keys])]
  have n1 : ¬ (0 + d + d : W) < 0 := not_lt.2 ((PathAdd.infl _ d hd).trans (PathAdd.infl _ d hd))
  have n2 : ¬ (0 + d + c + c : W) < 0 + d := not_lt.2 ((PathAdd.infl _ c hc).trans (PathAdd.infl _ c hc))
  have n3 : ¬ (0 + d + c + b + b : W) < 0 + d + c := not_lt.2 ((PathAdd.infl _ b hb).trans (PathAdd.infl _ b hb))
  have n4 : ¬ (0 + d + c + b + a + a : W) < 0 + d + c + b := not_lt.2 ((PathAdd.infl _ a ha).trans (PathAdd.infl _ a ha))
  iterate 6
    rw [iteratorLoop.eq_def]
    simp [popMin, Dict.get?, Dict.set, relaxPath, WithTop.coe_lt_coe, WithTop.coe_lt_top, n1, n2, n3, n4, -WithTop.coe_add, -WithTop.coe_zero]

/-- The two candidates for the length of the path. -/
theorem fourOps_bidirectional (a b c d : W) (ha : 0 ≤ a) (hb : 0 ≤ b) (hc : 0 ≤ c) (hd : 0 ≤ d) :
    dijkstraBidirectional (history (fourOps a b c d)) 0 4 = some (.ok (.pair
      ((if 0 + a + b + c + (0 + d) < 0 + a + b + (0 + d + c) then 0 + a + b + c + (0 + d) else 0 + a + b + (0 + d + c) : W) : WithTop W)
      [0, 1, 2, 3, 4])) ∧
    dijkstraBidirectional (history (fourOps a b c d)) 4 0 = some (.ok (.pair
      ((if 0 + d + c + b + (0 + a) < 0 + d + c + (0 + a + b) then 0 + d + c + b + (0 + a) else 0 + d + c + (0 + a + b) : W) : WithTop W)
      [4, 3, 2, 1, 0])) := by
  have h1 := fourOps_iterator a b c d ha hb hc hd
  have h2 := fourOps_iterator_back a b c d ha hb hc hd
  have m0 : (0 : ℕ) ∈ Dict.keys (history (fourOps a b c d)) := by rw [fourOps_history]; simp [Dict.keys]
  have m4 : (4 : ℕ) ∈ Dict.keys (history (fourOps a b c d)) := by rw [fourOps_history]; simp [Dict.keys]
  constructor
  · rw [dijkstraBidirectional, if_neg (not_not.2 m0), if_neg (not_not.2 m4), h1, h2, fourOps_history]
    simp [meet, Dict.keys, Dict.set, bestOuter, bestInner, Dict.get?, WithTop.coe_lt_coe, WithTop.coe_lt_top, -WithTop.coe_add, -WithTop.coe_zero]
    split_ifs <;> simp
  · rw [dijkstraBidirectional, if_neg (not_not.2 m4), if_neg (not_not.2 m0), h1, h2, fourOps_history]
    simp [meet, Dict.keys, Dict.set, bestOuter, bestInner, Dict.get?, WithTop.coe_lt_coe, WithTop.coe_lt_top, -WithTop.coe_add, -WithTop.coe_zero]
    split_ifs <;> simp

end generic

/-- `2**-52` -/
noncomputable def twoTiny : PyFloat := pyFloat 1 (-52) (by norm_num)

/-- `3 * 2**-53` -/
noncomputable def threeTiny : PyFloat := pyFloat 3 (-53) (by norm_num)

/-- `1 + 2**-51` -/
noncomputable def afterNext : PyFloat := pyFloat (2 ^ 52 + 2) (-52) (by norm_num)

theorem twoTiny_val : twoTiny.val = 2 * (2 : ℝ)⁻¹ ^ 53 := by
  simp only [twoTiny, pyFloat, Double.val]
  rw [show (-52 : ℤ) = -((52 : ℕ) : ℤ) by norm_num, zpow_neg, zpow_natCast]; norm_num

theorem threeTiny_val : threeTiny.val = 3 * (2 : ℝ)⁻¹ ^ 53 := by
  simp only [threeTiny, pyFloat, Double.val]
  rw [show (-53 : ℤ) = -((53 : ℕ) : ℤ) by norm_num, zpow_neg, zpow_natCast]; norm_num

theorem afterNext_val : afterNext.val = 1 + 4 * (2 : ℝ)⁻¹ ^ 53 := by
  simp only [afterNext, pyFloat, Double.val]
  rw [show (-52 : ℤ) = -((52 : ℕ) : ℤ) by norm_num, zpow_neg, zpow_natCast]; norm_num

/-- A sum that is a float is not rounded. -/
theorem exact_sum {a b c : PyFloat} (h : a.val + b.val = c.val) : a + b = c :=
  Subtype.ext (by change nearestEven.rnd (a.val + b.val) = c.val; rw [h]; exact nearestEven.exact _ c.2)

/-- `3 * 2**-53 + 1.0 == 1.0 + 2**-51`, a tie. -/
theorem threeTiny_add_one : threeTiny + one = afterNext := by
  refine Subtype.ext (?_ : nearestEven.rnd (threeTiny.val + one.val) = afterNext.val)
  rw [one_val, threeTiny_val, afterNext_val]
  change roundMantissa roundEven _ = _
  rw [roundMantissa, if_neg (by positivity), log_eq (e := 0) (by norm_num) (by norm_num)]
  have hf : (3 * (2 : ℝ)⁻¹ ^ 53 + 1) * 2 ^ ((52 : ℤ) - 0) = ((2 ^ 52 + 1 : ℤ) : ℝ) + 1 / 2 := by norm_num
  have hfl : ⌊((2 ^ 52 + 1 : ℤ) : ℝ) + 1 / 2⌋ = 2 ^ 52 + 1 := by
    rw [Int.floor_eq_iff]; constructor <;> linarith
  rw [hf, roundEven, hfl, if_neg (by linarith), if_neg (by linarith), if_neg (by decide)]
  norm_num

/-- The path 0-1-2-3-4 with the weights `1, 2**-53, 2**-53, 2**-53`. -/
noncomputable def lineOps : List (Op ℕ PyFloat) := fourOps one tiny tiny tiny

theorem one_nonneg' : (0 : PyFloat) ≤ one := Double.le_iff.2 (by rw [one_val, Double.val_zero]; norm_num)

theorem tiny_nonneg : (0 : PyFloat) ≤ tiny := Double.le_iff.2 (by rw [tiny_val, Double.val_zero]; positivity)

theorem one_lt_next : one < next := lt_of_not_ge (fun h => by
  have := Double.le_iff.1 h
  have ht : (0 : ℝ) < (2 : ℝ)⁻¹ ^ 53 := by positivity
  rw [one_val, next_val] at this; linarith)

theorem next_lt_afterNext : next < afterNext := lt_of_not_ge (fun h => by
  have := Double.le_iff.1 h
  have ht : (0 : ℝ) < (2 : ℝ)⁻¹ ^ 53 := by positivity
  rw [next_val, afterNext_val] at this; linarith)

theorem line_sums : (0 : PyFloat) + one = one ∧ (0 : PyFloat) + tiny = tiny ∧ tiny + tiny = twoTiny ∧ twoTiny + tiny = threeTiny ∧
    one + twoTiny = next ∧ twoTiny + one = next := by
  refine ⟨zero_add_one, exact_sum ?_, exact_sum ?_, exact_sum ?_, exact_sum ?_, exact_sum ?_⟩ <;>
    simp only [tiny_val, twoTiny_val, threeTiny_val, one_val, next_val, Double.val_zero] <;> ring

/-- C186, violation: with Python's floats the length from 4 to 0 is another one than from 0 to 4. -/
theorem C186_symmetry_violation :
    dijkstraBidirectional (history lineOps) 0 4 = some (.ok (.pair ((one : PyFloat) : WithTop PyFloat) [0, 1, 2, 3, 4])) ∧
    dijkstraBidirectional (history lineOps) 4 0 = some (.ok (.pair ((next : PyFloat) : WithTop PyFloat) [4, 3, 2, 1, 0])) ∧
    one < next := by
  obtain ⟨h1, h2⟩ := fourOps_bidirectional one tiny tiny tiny one_nonneg' tiny_nonneg tiny_nonneg tiny_nonneg
  obtain ⟨s1, s2, s3, s4, s5, s6⟩ := line_sums
  rw [s1, s2, s3, one_add_tiny, one_add_tiny, one_add_tiny, s5, if_pos one_lt_next] at h1
  rw [s1, s2, s3, s4, threeTiny_add_one, one_add_tiny, s6, if_neg (not_lt.2 next_lt_afterNext.le)] at h2
  exact ⟨h1, h2, one_lt_next⟩

theorem lineOps_nonneg : Nonneg lineOps := by
  intro u v x h
  change adj (history lineOps) u v = some x at h
  rw [adj] at h
  obtain ⟨N, hN, hx⟩ : ∃ N, Dict.get? (history lineOps) u = some N ∧ Dict.get? N v = some x := by
    cases e : Dict.get? (history lineOps) u with
    | none => rw [e] at h; simp at h
    | some N => rw [e] at h; exact ⟨N, rfl, h⟩
  have h1 := Dict.mem_of_get? hN
  have h2 := Dict.mem_of_get? hx
  rw [lineOps, fourOps_history] at h1
  have k1 := one_nonneg'
  have k2 := tiny_nonneg
  simp only [List.mem_cons, List.not_mem_nil, or_false, Prod.mk.injEq] at h1
  rcases h1 with ⟨rfl, rfl⟩ | ⟨rfl, rfl⟩ | ⟨rfl, rfl⟩ | ⟨rfl, rfl⟩ | ⟨rfl, rfl⟩ <;>
    simp only [List.mem_cons, List.not_mem_nil, or_false, Prod.mk.injEq] at h2
  · rw [h2.2]; assumption
  · rcases h2 with ⟨-, rfl⟩ | ⟨-, rfl⟩ <;> assumption
  · rcases h2 with ⟨-, rfl⟩ | ⟨-, rfl⟩ <;> assumption
  · rcases h2 with ⟨-, rfl⟩ | ⟨-, rfl⟩ <;> assumption
  · rw [h2.2]; assumption

/-- C186, violation: for the only path from 4 to 0, `dijkstra` returns `1 + 2**-51`, and `dijkstra_bidirectional`
`1 + 2**-52`. -/
theorem C186_differs_from_dijkstra_violation : ∃ D P, dijkstra (history lineOps) 4 = some (.ok (D, P)) ∧
    Dict.get? D 0 = some ((afterNext : PyFloat) : WithTop PyFloat) ∧
    dijkstraBidirectional (history lineOps) 4 0 = some (.ok (.pair ((next : PyFloat) : WithTop PyFloat) [4, 3, 2, 1, 0])) ∧
    next < afterNext := by
  have h4 : 4 ∈ (toAbs (history lineOps)).verts := by
    change 4 ∈ Dict.keys (history lineOps)
    rw [lineOps, fourOps_history]; simp [Dict.keys]
  obtain ⟨D, P, h1, -⟩ := C173_dijkstra_least lineOps lineOps_nonneg 4 h4
  have h2 := fourOps_iterator_back one tiny tiny tiny one_nonneg' tiny_nonneg tiny_nonneg tiny_nonneg
  obtain ⟨s1, s2, s3, s4, s5, s6⟩ := line_sums
  rw [s2, s3, s4, threeTiny_add_one] at h2
  refine ⟨D, P, h1, (C173_same_lengths lineOps lineOps_nonneg 4 h4 D P _ h1 h2 0 afterNext).2 ⟨[4, 3, 2, 1, 0], by simp⟩,
    C186_symmetry_violation.2.1, next_lt_afterNext⟩

/-- The bound of `C186_bidirectional_thousand` holds in this example, where the distance is `1 + 3 * 2**-53`. -/
example : ∃ L : ℝ, IsShortest (Double.exactWeight (toAbs (history lineOps)).weight) 4 0 L ∧ |next.val - L| ≤ 10⁻¹ ^ 12 * L := by
  have hv : ∀ v < 5, v ∈ (toAbs (history lineOps)).verts := by
    intro v hv
    change v ∈ Dict.keys (history lineOps)
    rw [lineOps, fourOps_history]
    simp only [Dict.keys, List.map_cons, List.map_nil, List.mem_cons, List.not_mem_nil, or_false]
    omega
  have hn : numVertices (history lineOps) = 5 := by rw [lineOps, fourOps_history]; rfl
  obtain ⟨-, h, -⟩ := C186_symmetry_violation
  rcases C186_bidirectional_error lineOps lineOps_nonneg 4 0 (hv 4 (by omega)) (hv 0 (by omega)) (by omega) with
    ⟨h1, -⟩ | ⟨-, L, -, -, -, hL, -⟩
  · rw [h] at h1; simp at h1
  obtain ⟨c, L', p, k1, k2, -⟩ := C186_bidirectional_thousand lineOps lineOps_nonneg (by rw [hn]; norm_num) 4 0 (hv 4 (by omega))
    (hv 0 (by omega)) (by omega) L hL
  rw [h] at k1
  simp only [Option.some.injEq, Except.ok.injEq, Bi.pair.injEq, WithTop.coe_inj] at k1
  exact ⟨L, hL, k1.1 ▸ k2⟩

example : dijkstraBidirectional (history lineOps) 2 2 = some (.ok (.pair ⊤ [])) :=
  (C186_same_vertex_violation lineOps lineOps_nonneg 2 (by
    change 2 ∈ Dict.keys (history lineOps)
    rw [lineOps, fourOps_history]; simp [Dict.keys]) rfl).1

end Rosemary.Props
