import Verif.Props.OptimaChanges
import Verif.Props.Dispatch
import Verif.Props.SteinerTrees

/-!
# Spanning trees and round trips (C198)
-/

namespace Rosemary.Props

open Rosemary.Graph Rosemary.SpanningTrees Rosemary.Spec Rosemary.SteinerTrees

variable {R : Type} [AddCommGroup R] [LinearOrder R] [IsOrderedAddMonoid R]

/-- The graph has the vertices `0, …, n - 1`, and an edge of weight `d u v` between any two of them. -/
def CompleteOn (ops : List (Op ℕ R)) (n : ℕ) (d : ℕ → ℕ → R) : Prop :=
  (∀ v, v ∈ (toAbs (history ops)).verts ↔ v < n) ∧
    ∀ u v, (toAbs (history ops)).weight u v = if u < n ∧ v < n ∧ u ≠ v then some (d u v) else none

private theorem way_close (d : ℕ → ℕ → R) (a : ℕ) (l : List ℕ) (z : ℕ) : Tsp.way d a l z = closeCost d a l z := by
  induction l generalizing a with
  | nil => rw [Tsp.way_nil, closeCost]
  | cons b l ih => rw [Tsp.way_cons, closeCost, ih]

private theorem complete_reach {ops : List (Op ℕ R)} {n : ℕ} {d : ℕ → ℕ → R} (h : CompleteOn ops n d) {s : ℕ} (hs : s < n) (v : ℕ) :
    Reach (EdgeOf ops) s v ↔ v < n := by
  constructor
  · intro hr
    exact (h.1 v).1 (mem_of_reach (history_spec ops).1 ((h.1 s).2 hs) hr)
  · intro hv
    by_cases e : s = v
    · rw [e]; exact Reach.refl _ _
    · exact (Reach.refl _ s).step ⟨d s v, by rw [h.2, if_pos ⟨hs, hv, e⟩]⟩

/-- `prim` on the complete graph. -/
private theorem prim_complete {ops : List (Op ℕ R)} {n : ℕ} {d : ℕ → ℕ → R} (h : CompleteOn ops n d) {s : ℕ} (hs : s < n) :
    ∃ w edges, prim (history ops) (some s) = some (.ok (w, edges)) ∧ w = totalWeight (toAbs (history ops)).weight edges.toFinset ∧
      MinSpanningTree (toAbs (history ops)).weight (Finset.range n) edges.toFinset := by
  obtain ⟨w, edges, h1, -, h3, C, hC, h4⟩ := C70_prim ops s ((h.1 s).2 hs)
  have : C = Finset.range n := by ext v; rw [hC, complete_reach h hs, Finset.mem_range]
  exact ⟨w, edges, h1, h3, this ▸ h4⟩

private theorem tour_bound {ops : List (Op ℕ R)} {n : ℕ} {d : ℕ → ℕ → R} (h : CompleteOn ops n d) (hsym : ∀ u v, d u v = d v u)
    {M : R} (hM : ∀ T, SpanningTree (toAbs (history ops)).weight (Finset.range n) T → M ≤ totalWeight (toAbs (history ops)).weight T)
    {t : List ℕ} (ht : IsTour n t) : n • M ≤ (n - 1) • tourLength d t := by
  cases t with
  | nil =>
    have := Tsp.tour_length ht
    simp only [List.length_nil] at this
    subst this
    simp
  | cons y rest =>
    have hB : ∀ x ∈ Finset.range n, ∀ y ∈ Finset.range n, x ≠ y → (toAbs (history ops)).weight x y = some (d x y) := by
      intro x hx y hy hne
      rw [Finset.mem_range] at hx hy
      rw [h.2, if_pos ⟨hx, hy, hne⟩]
    have t1 : TreeTour (Finset.range n) y rest := ⟨ht.1, by
      ext v; rw [List.mem_toFinset, ht.2, Finset.mem_range]⟩
    have hpath : ∀ z l, TreeTour (Finset.range n) z l → M ≤ openCost d z l := by
      intro z l hl
      obtain ⟨T', h1, h2⟩ := path_tree hB (fun x _ y _ => hsym x y) l z hl.1 (fun u hu => by rw [← hl.2, List.mem_toFinset]; exact hu)
      rw [← h2]
      exact hM T' (by rw [← hl.2]; exact h1)
    have hE : ∀ e ∈ costs d y rest y, M + e ≤ closeCost d y rest y := by
      intro e he
      rcases costs_cases d y rest y he with h | ⟨l1, z, l2, rfl, h⟩
      · rw [← h]; exact add_le_add (hpath y rest t1) le_rfl
      · have := hpath z _ t1.rotate
        rw [openCost_append] at this
        rw [h, show openCost d y l1 + e + closeCost d z l2 y = closeCost d z l2 y + openCost d y l1 + e by ac_rfl]
        exact add_le_add this le_rfl
    have hs := sum_bound _ hE
    have hc := t1.card
    rw [Finset.card_range] at hc
    rw [(costs_sum d y rest y).1, (costs_sum d y rest y).2, ← hc] at hs
    have : n • closeCost d y rest y = (n - 1) • closeCost d y rest y + closeCost d y rest y := by
      rw [← succ_nsmul]; congr 1; omega
    rw [this] at hs
    rw [Tsp.tourLength_cons, way_close]
    exact le_of_add_le_add_right hs

/-! ## C198 -/

/-- C198: the weight from `prim` is at most `1 - 1 / n` times the length of any round trip, for symmetric distances of any
sign. -/
theorem C198_tree_below_tours {ops : List (Op ℕ R)} {n : ℕ} {d : ℕ → ℕ → R} (h : CompleteOn ops n d) (hsym : ∀ u v, d u v = d v u)
    {s : ℕ} (hs : s < n) : ∃ w edges, prim (history ops) (some s) = some (.ok (w, edges)) ∧
      ∀ t, IsTour n t → n • w ≤ (n - 1) • tourLength d t := by
  obtain ⟨w, edges, h1, h2, h3⟩ := prim_complete h hs
  exact ⟨w, edges, h1, fun t ht => tour_bound h hsym (fun T hT => by rw [h2]; exact h3.min T hT) ht⟩

/-- C198: with the triangle inequality the shortest round trip, which `depth_first` and `branch_and_bound` return, is at most
twice as long as the weight from `prim`, and at least `n / (n - 1)` times as long. -/
theorem C198_exact_tours {ops : List (Op ℕ R)} {n : ℕ} {d : ℕ → ℕ → R} (h : CompleteOn ops n d) (hsym : ∀ u v, d u v = d v u)
    {s : ℕ} (hs : s < n) (h2 : 2 ≤ n) (D : ℕ → ℕ → WithTop R) (hD : ∀ i < n, ∀ j < n, i ≠ j → D i j = d i j) {v : WithTop R}
    (hv : ReturnedLength D n v) : ∃ w edges, ∃ L : R, prim (history ops) (some s) = some (.ok (w, edges)) ∧ v = L ∧
      n • w ≤ (n - 1) • L ∧
      ((∀ i < n, d i i = 0) → (∀ i < n, ∀ j < n, ∀ k < n, d i k ≤ d i j + d j k) → L ≤ 2 • w) := by
  obtain ⟨⟨t, ht, h3⟩, h4⟩ := returnedLength_shortest h2 (fun i hi j hj hij => by rw [hD i hi j hj hij]; exact WithTop.coe_ne_top) hv
  obtain ⟨w, edges, p1, p2, p3⟩ := prim_complete h hs
  rw [tourLength_coe h2 hD ht] at h3
  refine ⟨w, edges, tourLength d t, p1, h3.symm, tour_bound h hsym (fun T hT => by rw [p2]; exact p3.min T hT) ht, fun h0 htri => ?_⟩
  have hm : Metric (toAbs (history ops)).weight (Finset.range n) d := by
    refine ⟨fun x hx => h0 x (Finset.mem_range.1 hx), fun x hx y hy => ?_, fun x _ y _ => hsym x y, fun x hx y hy z hz =>
      htri x (Finset.mem_range.1 hx) y (Finset.mem_range.1 hy) z (Finset.mem_range.1 hz), fun x hx y hy w hw => ?_⟩
    · have := htri x (Finset.mem_range.1 hx) y (Finset.mem_range.1 hy) x (Finset.mem_range.1 hx)
      rw [h0 x (Finset.mem_range.1 hx), hsym y x] at this
      by_contra hc
      rw [not_le] at hc
      exact absurd this (not_le.2 (add_neg hc hc))
    · rw [h.2] at hw
      by_cases k : x < n ∧ y < n ∧ x ≠ y
      · rw [if_pos k] at hw
        injection hw with hw
        exact hw.le
      · rw [if_neg k] at hw; exact absurd hw (by simp)
  obtain ⟨rest, t1, t2⟩ := exists_tour n (Finset.range n) edges.toFinset (Finset.card_range n) p3.tree hm (Finset.range n)
    (Finset.Subset.refl _) s (Finset.mem_range.2 hs)
  rw [← p2, ← way_close, ← Tsp.tourLength_cons] at t2
  have ht' : IsTour n (s :: rest) := ⟨t1.1, fun i => by rw [← List.mem_toFinset, t1.2, Finset.mem_range]⟩
  have := h4 _ ht'
  rw [← h3, tourLength_coe h2 hD ht', WithTop.coe_le_coe] at this
  exact this.trans t2

/-- C198: what `farthest_insertion` and `two_opt` return is at least `n / (n - 1)` times the weight from `prim` as well. -/
theorem C198_heuristic_tours {ops : List (Op ℕ R)} {n : ℕ} {d : ℕ → ℕ → R} (h : CompleteOn ops n d) (hsym : ∀ u v, d u v = d v u)
    {s : ℕ} (hs : s < n) (h2 : 2 ≤ n) {eps : R} (heps : 0 ≤ eps) : ∃ w edges L path L' path',
      prim (history ops) (some s) = some (.ok (w, edges)) ∧
      Tsp.farthestInsertion d n = some (.ok (L, path)) ∧ n • w ≤ (n - 1) • L ∧
      Tsp.twoOpt d eps n = some (.ok (L', path')) ∧ n • w ≤ (n - 1) • L' := by
  obtain ⟨w, edges, p1, p2⟩ := C198_tree_below_tours h hsym hs
  obtain ⟨path, f1, f2, -⟩ := C62_farthest_insertion d h2
  obtain ⟨path', g1, g2, -⟩ := C62_two_opt_partial d hsym heps (show 0 < n by omega)
  exact ⟨w, edges, _, path, _, path', p1, f1, p2 _ f2, g1, p2 _ g2⟩

/-! ## Examples -/

/-- Four points on a line, at the positions 0, 1, 2, 3. -/
def pointsOps : List (Op ℕ ℤ) := [Op.addEdges [(0, 1, 1), (0, 2, 2), (0, 3, 3), (1, 2, 1), (1, 3, 2), (2, 3, 1)]]

theorem pointsOps_complete : CompleteOn pointsOps 4 (fun i j => if i ≤ j then (j : ℤ) - i else (i : ℤ) - j) := by
  have hk : ∀ v, v ∈ Dict.keys (history pointsOps) ↔ v < 4 := by
    intro v
    have e : Dict.keys (history pointsOps) = [0, 1, 2, 3] := by decide +kernel
    rw [e]; simp; omega
  refine ⟨hk, fun u v => ?_⟩
  change adj (history pointsOps) u v = _
  by_cases hu : u < 4
  · by_cases hv : v < 4
    · have : ∀ u < 4, ∀ v < 4, adj (history pointsOps) u v =
          if u < 4 ∧ v < 4 ∧ u ≠ v then some (if u ≤ v then (v : ℤ) - u else (u : ℤ) - v) else none := by decide +kernel
      exact this u hu v hv
    · rw [if_neg (fun k => hv k.2.1)]
      cases e : adj (history pointsOps) u v with
      | none => rfl
      | some w => exact absurd ((hk v).1 ((history_spec pointsOps).1.mem_right e)) hv
  · rw [if_neg (fun k => hu k.1)]
    cases e : adj (history pointsOps) u v with
    | none => rfl
    | some w => exact absurd ((hk u).1 (mem_of_adj e)) hu

/-- The tree has weight 3, so that no round trip is shorter than 4; the shortest one has length 6. -/
example : ∃ w edges, prim (history pointsOps) (some 2) = some (.ok (w, edges)) ∧
    ∀ t, IsTour 4 t → 4 * w ≤ 3 * tourLength (fun i j : ℕ => if i ≤ j then (j : ℤ) - i else (i : ℤ) - j) t := by
  obtain ⟨w, edges, h1, h2⟩ := C198_tree_below_tours pointsOps_complete (fun u v => by split_ifs <;> omega) (show 2 < 4 by decide)
  exact ⟨w, edges, h1, fun t ht => by simpa using h2 t ht⟩

example (v : WithTop ℤ)
    (hv : ReturnedLength (fun i j : ℕ => if i = j then ⊤ else ((if i ≤ j then (j : ℤ) - i else (i : ℤ) - j : ℤ) : WithTop ℤ)) 4 v) :
    ∃ w edges, ∃ L : ℤ, prim (history pointsOps) (some 0) = some (.ok (w, edges)) ∧ v = L ∧ 4 * w ≤ 3 * L ∧ L ≤ 2 * w := by
  obtain ⟨w, edges, L, h1, h2, h3, h4⟩ := C198_exact_tours pointsOps_complete (fun u v => by split_ifs <;> omega) (show 0 < 4 by decide)
    (by decide) _ (fun i _ j _ hij => if_neg hij) hv
  refine ⟨w, edges, L, h1, h2, by simpa using h3, ?_⟩
  have := h4 (fun i _ => by simp) (fun i _ j _ k _ => by split_ifs <;> omega)
  simpa using this

end Rosemary.Props
