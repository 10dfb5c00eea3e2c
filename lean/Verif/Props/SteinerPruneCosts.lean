import Verif.Lemmas.SteinerPruneCosts
import Verif.Props.SteinerTrees
import Mathlib.Tactic.Ring
import Mathlib.Data.Nat.Log
import Mathlib.Order.Interval.Finset.Nat

/-!
# C181: the search for leaves in `distance_network_heuristic`
-/

namespace Rosemary.Props

open Rosemary.Graph Rosemary.SpanningTrees Rosemary.Spec Rosemary.Paths Rosemary.SteinerTrees

section

variable {V W : Type} [LinearOrder V] [AddCommMonoid W] [LinearOrder W] [IsOrderedCancelAddMonoid W]

/-- C181: while it removes leaves, `distance_network_heuristic` looks at no more than `|V| (|V| + 1) / 2` vertices.  Missing is
the bound `O(t |E| log |V|)` of the docstring, which is false. -/
theorem C181_leaves_partial {ord : Finset V → List V} (hord : ∀ S, (ord S).Nodup ∧ ∀ x, x ∈ ord S ↔ x ∈ S) (one : W)
    (ops : List (Op V W)) (hN : ∀ u v x, (toAbs (history ops)).weight u v = some x → 0 ≤ x) (terminals : List V)
    (hm : ∀ u ∈ terminals, u ∈ (toAbs (history ops)).verts)
    (hr : ∀ u ∈ terminals, ∀ v ∈ terminals, Reach (EdgeOf ops) u v) (hR : 2 ≤ terminals.toFinset.card) :
    ∃ r k, distanceNetworkHeuristic ord one (history ops) terminals = some (.ok r) ∧
      distanceNetworkC ord one (history ops) terminals = some (.ok r, k) ∧
      2 * k ≤ numVertices (history ops) * (numVertices (history ops) + 1) := by
  cases terminals with
  | nil => simp at hR
  | cons s us =>
    exact distanceNetworkC_spec hord (history_spec ops).1 hN one s us hm (R := (s :: us).toFinset)
      (fun v => by
        rw [List.mem_toFinset]
        exact ⟨fun h => ⟨h, hr s List.mem_cons_self v h⟩, And.left⟩) hR

end

/-! ### A long tail -/

/-- A path `0, 1, ..., l + 3` and one more edge from 0 to `l + 2`.  The edges up to `l` are short. -/
def tailOps (l : ℕ) : List (Op ℕ ℤ) :=
  [.addEdges ((List.range l).map (fun i => (i, i + 1, 1))), .addEdge l (l + 1) (l + 4), .addEdge (l + 1) (l + 2) (l + 2),
    .addEdge (l + 2) (l + 3) (l + 2), .addEdge 0 (l + 2) (l + 3)]

/-- The edges of the graph and their weights. -/
def TailEdge (l u v : ℕ) (x : ℤ) : Prop :=
  (v = u + 1 ∧ u < l ∧ x = 1) ∨ (u = l ∧ v = l + 1 ∧ x = l + 4) ∨ (u = l + 1 ∧ v = l + 2 ∧ x = l + 2) ∨
    (u = l + 2 ∧ v = l + 3 ∧ x = l + 2) ∨ (u = 0 ∧ v = l + 2 ∧ x = l + 3)

theorem tail_adj (l u v : ℕ) : adj (history (tailOps l)) u v =
    if 0 = u ∧ l + 2 = v ∨ l + 2 = u ∧ 0 = v then some ((l : ℤ) + 3)
    else if l + 2 = u ∧ l + 3 = v ∨ l + 3 = u ∧ l + 2 = v then some ((l : ℤ) + 2)
    else if l + 1 = u ∧ l + 2 = v ∨ l + 2 = u ∧ l + 1 = v then some ((l : ℤ) + 2)
    else if l = u ∧ l + 1 = v ∨ l + 1 = u ∧ l = v then some ((l : ℤ) + 4)
    else if (v = u + 1 ∧ u < l) ∨ (u = v + 1 ∧ v < l) then some 1 else none := by
  have hmem : ∀ a b : ℕ, ((a, b, (1 : ℤ)) ∈ (List.range l).map (fun i => (i, i + 1, (1 : ℤ)))) ↔ b = a + 1 ∧ a < l := by
    intro a b
    simp only [List.mem_map, List.mem_range, Prod.mk.injEq]
    constructor
    · rintro ⟨i, hi, h1, h2, -⟩; omega
    · rintro ⟨rfl, h1⟩; exact ⟨a, h1, rfl, rfl, trivial⟩
  have h : adj (history (tailOps l)) u v =
      adj (addEdge (addEdge (addEdge (addEdge (addEdges ([] : Graph ℕ ℤ) ((List.range l).map (fun i => (i, i + 1, 1))))
        l (l + 1) (l + 4)) (l + 1) (l + 2) (l + 2)) (l + 2) (l + 3) (l + 2)) 0 (l + 2) (l + 3)) u v := rfl
  rw [h, adj_addEdge, adj_addEdge, adj_addEdge, adj_addEdge, adj_addEdges_const _ _ 1 (by
    intro e he
    obtain ⟨i, -, rfl⟩ := List.mem_map.1 he
    rfl), adj_empty]
  simp only [hmem]

theorem tail_edge {l u v : ℕ} {x : ℤ} (h : TailEdge l u v x) : adj (history (tailOps l)) u v = some x := by
  rw [tail_adj]
  rcases h with ⟨h1, h2, h3⟩ | ⟨h1, h2, h3⟩ | ⟨h1, h2, h3⟩ | ⟨h1, h2, h3⟩ | ⟨h1, h2, h3⟩
  · rw [if_neg (by omega), if_neg (by omega), if_neg (by omega), if_neg (by omega), if_pos (by omega), h3]
  · rw [if_neg (by omega), if_neg (by omega), if_neg (by omega), if_pos (by omega), h3]
  · rw [if_neg (by omega), if_neg (by omega), if_pos (by omega), h3]
  · rw [if_neg (by omega), if_pos (by omega), h3]
  · rw [if_pos (by omega), h3]

theorem tail_weight (l u v : ℕ) (x : ℤ) : adj (history (tailOps l)) u v = some x ↔ TailEdge l u v x ∨ TailEdge l v u x := by
  constructor
  · intro h
    rw [tail_adj] at h
    split_ifs at h with h1 h2 h3 h4 h5
    · rw [Option.some.injEq] at h
      exact h1.imp (fun k => Or.inr (Or.inr (Or.inr (Or.inr ⟨k.1.symm, k.2.symm, h.symm⟩))))
        (fun k => Or.inr (Or.inr (Or.inr (Or.inr ⟨k.2.symm, k.1.symm, h.symm⟩))))
    · rw [Option.some.injEq] at h
      exact h2.imp (fun k => Or.inr (Or.inr (Or.inr (Or.inl ⟨k.1.symm, k.2.symm, h.symm⟩))))
        (fun k => Or.inr (Or.inr (Or.inr (Or.inl ⟨k.2.symm, k.1.symm, h.symm⟩))))
    · rw [Option.some.injEq] at h
      exact h3.imp (fun k => Or.inr (Or.inr (Or.inl ⟨k.1.symm, k.2.symm, h.symm⟩)))
        (fun k => Or.inr (Or.inr (Or.inl ⟨k.2.symm, k.1.symm, h.symm⟩)))
    · rw [Option.some.injEq] at h
      exact h4.imp (fun k => Or.inr (Or.inl ⟨k.1.symm, k.2.symm, h.symm⟩))
        (fun k => Or.inr (Or.inl ⟨k.2.symm, k.1.symm, h.symm⟩))
    · rw [Option.some.injEq] at h
      exact h5.imp (fun k => Or.inl ⟨k.1, k.2, h.symm⟩) (fun k => Or.inl ⟨k.1, k.2, h.symm⟩)
  · rintro (h | h)
    · exact tail_edge h
    · rw [(history_spec (tailOps l)).1.symm]
      exact tail_edge h

theorem tail_lt {l u v : ℕ} (huv : u ≤ v) (x : ℤ) : adj (history (tailOps l)) u v = some x ↔ TailEdge l u v x := by
  rw [tail_weight]
  refine ⟨fun h => h.resolve_right ?_, Or.inl⟩
  rintro (h | h | h | h | h) <;> omega

theorem tail_mem (l v : ℕ) : Mem (history (tailOps l)) v ↔ v < l + 4 := by
  have h : Mem (history (tailOps l)) v ↔
      Mem (addEdge (addEdge (addEdge (addEdge (addEdges ([] : Graph ℕ ℤ) ((List.range l).map (fun i => (i, i + 1, 1))))
        l (l + 1) (l + 4)) (l + 1) (l + 2) (l + 2)) (l + 2) (l + 3) (l + 2)) 0 (l + 2) (l + 3)) v := Iff.rfl
  rw [h, mem_addEdge, mem_addEdge, mem_addEdge, mem_addEdge, mem_addEdges]
  have h0 : ¬ Mem ([] : Graph ℕ ℤ) v := by simp [Mem, Dict.keys]
  have h1 : (∃ e ∈ (List.range l).map (fun i => (i, i + 1, (1 : ℤ))), v = e.1 ∨ v = e.2.1) ↔ 0 < l ∧ v ≤ l := by
    constructor
    · rintro ⟨e, he, h1⟩
      obtain ⟨i, hi, rfl⟩ := List.mem_map.1 he
      rw [List.mem_range] at hi
      dsimp only at h1
      omega
    · rintro ⟨h1, h2⟩
      by_cases hv : v < l
      · exact ⟨_, List.mem_map.2 ⟨v, List.mem_range.2 hv, rfl⟩, Or.inl rfl⟩
      · exact ⟨_, List.mem_map.2 ⟨l - 1, List.mem_range.2 (by omega), rfl⟩, Or.inr (by dsimp only; omega)⟩
  rw [h1]
  constructor
  · intro h2
    have h3 := h2
    simp only [h0, or_false] at h3
    omega
  · intro h2
    omega

/-- The spanning tree without the edge from `l` to `l + 1`, after the removal of the vertices `j + 1, ..., l`. -/
def tailTree (l j : ℕ) : Finset (ℕ × ℕ) :=
  (Finset.range j).image (fun i => (i, i + 1)) ∪ {(l + 1, l + 2), (l + 2, l + 3), (0, l + 2)}

/-- The vertices of this tree. -/
def tailVerts (l j : ℕ) : Finset ℕ := (Finset.range (l + 4)).filter (fun v => v ≤ j ∨ l < v)

theorem mem_tailTree (l j a b : ℕ) : (a, b) ∈ tailTree l j ↔
    (b = a + 1 ∧ a < j) ∨ (a = l + 1 ∧ b = l + 2) ∨ (a = l + 2 ∧ b = l + 3) ∨ (a = 0 ∧ b = l + 2) := by
  rw [tailTree, Finset.mem_union, Finset.mem_image]
  simp only [Finset.mem_insert, Finset.mem_singleton, Prod.mk.injEq, Finset.mem_range]
  have : (∃ i, i < j ∧ i = a ∧ i + 1 = b) ↔ b = a + 1 ∧ a < j :=
    ⟨by rintro ⟨i, h1, rfl, rfl⟩; exact ⟨rfl, h1⟩, by rintro ⟨rfl, h1⟩; exact ⟨a, h1, rfl, rfl⟩⟩
  rw [this]

theorem mem_tailVerts (l j v : ℕ) : v ∈ tailVerts l j ↔ v < l + 4 ∧ (v ≤ j ∨ l < v) := by
  rw [tailVerts, Finset.mem_filter, Finset.mem_range]

theorem tailVerts_self (l : ℕ) : tailVerts l l = Finset.range (l + 4) := by
  ext v; rw [mem_tailVerts, Finset.mem_range]; omega

theorem card_tailTree (l j : ℕ) (hj : j ≤ l) : (tailTree l j).card = j + 3 := by
  rw [tailTree, Finset.card_union_of_disjoint, Finset.card_image_of_injective, Finset.card_range]
  · have : ({(l + 1, l + 2), (l + 2, l + 3), (0, l + 2)} : Finset (ℕ × ℕ)).card = 3 := by
      rw [Finset.card_eq_three]
      refine ⟨_, _, _, ?_, ?_, ?_, rfl⟩ <;> simp
    rw [this]
  · intro i k h; simpa using h
  · rw [Finset.disjoint_left]
    rintro ⟨a, b⟩ h1 h2
    obtain ⟨i, hi, h3⟩ := Finset.mem_image.1 h1
    rw [Finset.mem_range] at hi
    simp only [Finset.mem_insert, Finset.mem_singleton, Prod.mk.injEq] at h2 h3
    omega

theorem card_tailVerts (l j : ℕ) (hj : j ≤ l) : (tailVerts l j).card = j + 4 := by
  have : tailVerts l j = Finset.range (l + 4) \ Finset.Ico (j + 1) (l + 1) := by
    ext v; rw [mem_tailVerts, Finset.mem_sdiff, Finset.mem_range, Finset.mem_Ico]; omega
  rw [this, Finset.card_sdiff_of_subset, Finset.card_range, Nat.card_Ico]
  · omega
  · intro v hv; rw [Finset.mem_Ico] at hv; rw [Finset.mem_range]; omega

theorem tailTree_joined (l j : ℕ) (v : ℕ) (hv : v ∈ tailVerts l j) : Joined (tailTree l j) 0 v := by
  rw [mem_tailVerts] at hv
  have h1 : ∀ i, i ≤ j → Joined (tailTree l j) 0 i := by
    intro i
    induction i with
    | zero => intro _; exact Joined.refl _ _
    | succ i ih => intro hi; exact (ih (by omega)).trans (Joined.of_mem ((mem_tailTree _ _ _ _).2 (Or.inl ⟨rfl, by omega⟩)))
  have h2 : Joined (tailTree l j) 0 (l + 2) := Joined.of_mem ((mem_tailTree _ _ _ _).2 (by omega))
  by_cases hj : v ≤ j
  · exact h1 v hj
  · obtain rfl | rfl | rfl : v = l + 1 ∨ v = l + 2 ∨ v = l + 3 := by omega
    · exact h2.trans (Joined.of_mem ((mem_tailTree _ _ _ _).2 (by omega))).symm
    · exact h2
    · exact h2.trans (Joined.of_mem ((mem_tailTree _ _ _ _).2 (by omega)))

theorem tailTree_spanning (l j : ℕ) (hj : j ≤ l) : SpanningTree (adj (history (tailOps l))) (tailVerts l j) (tailTree l j) := by
  refine ⟨fun u v huv => ?_, fun u hu v hv => (tailTree_joined l j u hu).symm.trans (tailTree_joined l j v hv), ?_⟩
  · rw [mem_tailTree] at huv
    have hlt : u < v := by omega
    refine ⟨hlt, by rw [mem_tailVerts]; omega, by rw [mem_tailVerts]; omega, ?_⟩
    rcases huv with h | h | h | h
    · exact ⟨1, (tail_lt hlt.le _).2 (Or.inl ⟨h.1, by omega, rfl⟩)⟩
    · exact ⟨l + 2, (tail_lt hlt.le _).2 (Or.inr (Or.inr (Or.inl ⟨h.1, h.2, rfl⟩)))⟩
    · exact ⟨l + 2, (tail_lt hlt.le _).2 (Or.inr (Or.inr (Or.inr (Or.inl ⟨h.1, h.2, rfl⟩))))⟩
    · exact ⟨l + 3, (tail_lt hlt.le _).2 (Or.inr (Or.inr (Or.inr (Or.inr ⟨h.1, h.2, rfl⟩))))⟩
  · rw [card_tailTree l j hj, card_tailVerts l j hj]

theorem tail_pos (l : ℕ) : ∀ u v x, adj (history (tailOps l)) u v = some x → 0 < x := by
  intro u v x h
  rw [tail_weight] at h
  unfold TailEdge at h
  omega

theorem tail_reach (l u v : ℕ) (hu : u < l + 4) (hv : v < l + 4) :
    Reach (fun a b => ∃ w, adj (history (tailOps l)) a b = some w) u v := by
  have hT := tailTree_spanning l l le_rfl
  exact reach_of_joined (history_spec (tailOps l)).1 (fun e he => (hT.edge e.1 e.2 he).2.2.2)
    (hT.joined u (by rw [tailVerts_self, Finset.mem_range]; exact hu) v (by rw [tailVerts_self, Finset.mem_range]; exact hv))

/-- The only minimum spanning tree. -/
theorem tail_mst (l : ℕ) {T : Finset (ℕ × ℕ)} (hT : MinSpanningTree (adj (history (tailOps l))) (Finset.range (l + 4)) T) :
    T = tailTree l l := by
  set A := adj (history (tailOps l)) with hAdef
  have hne : (l, l + 1) ∉ tailTree l l := by rw [mem_tailTree]; omega
  have hsub : T ⊆ insert (l, l + 1) (tailTree l l) := by
    rintro ⟨a, b⟩ he
    obtain ⟨h1, -, -, w, hw⟩ := hT.tree.edge a b he
    rw [hAdef, tail_lt h1.le] at hw
    unfold TailEdge at hw
    rw [Finset.mem_insert, mem_tailTree, Prod.mk.injEq]
    omega
  have hcT : T.card = l + 3 := by
    have := hT.tree.card
    rw [Finset.card_range] at this
    omega
  have hcE : (insert (l, l + 1) (tailTree l l)).card = l + 4 := by
    rw [Finset.card_insert_of_notMem hne, card_tailTree l l le_rfl]
  have hdiff : (insert (l, l + 1) (tailTree l l) \ T).card = 1 := by
    rw [Finset.card_sdiff_of_subset hsub, hcE, hcT]; omega
  obtain ⟨f, hf⟩ := Finset.card_eq_one.1 hdiff
  have hfm : f ∈ insert (l, l + 1) (tailTree l l) := by
    have : f ∈ insert (l, l + 1) (tailTree l l) \ T := by rw [hf]; exact Finset.mem_singleton_self f
    exact (Finset.mem_sdiff.1 this).1
  have hs1 : ∑ e ∈ insert (l, l + 1) (tailTree l l) \ T, (A e.1 e.2).getD 0 + totalWeight A T =
      ∑ e ∈ insert (l, l + 1) (tailTree l l), (A e.1 e.2).getD 0 := Finset.sum_sdiff hsub
  rw [hf, Finset.sum_singleton, Finset.sum_insert hne] at hs1
  have hs2 : totalWeight A T ≤ ∑ e ∈ tailTree l l, (A e.1 e.2).getD 0 :=
    hT.min _ (by rw [← tailVerts_self]; exact tailTree_spanning l l le_rfl)
  have hbig : A l (l + 1) = some ((l : ℤ) + 4) := (tail_lt (Nat.le_succ l) _).2 (Or.inr (Or.inl ⟨rfl, rfl, rfl⟩))
  have hfeq : f = (l, l + 1) := by
    by_contra hc
    have hft := (Finset.mem_insert.1 hfm).resolve_left hc
    obtain ⟨a, b⟩ := f
    obtain ⟨h1, -, -, w, hw⟩ := (tailTree_spanning l l le_rfl).edge a b hft
    have hw' := (tail_lt h1.le w).1 hw
    rw [mem_tailTree] at hft
    unfold TailEdge at hw'
    dsimp only at hs1
    rw [hbig] at hs1
    rw [hAdef] at hs1 hs2
    rw [hw, Option.getD_some, Option.getD_some] at hs1
    omega
  have h3 : insert (l, l + 1) (tailTree l l) \ {f} = T := by
    rw [← hf, Finset.sdiff_sdiff_eq_self hsub]
  rw [← h3, hfeq]
  ext e
  rw [Finset.mem_sdiff, Finset.mem_insert, Finset.mem_singleton]
  constructor
  · rintro ⟨h1, h2⟩; exact h1.resolve_left h2
  · intro h1; exact ⟨Or.inr h1, fun h2 => hne (h2 ▸ h1)⟩

/-! ### Removing the tail -/

theorem prune_eq {V W : Type} [LinearOrder V] (terminals : List V) (ls : List V) (h : Graph V W) (b : Bool) :
    prune terminals ls h b = ((ls.filter (fun x => decide (x ∉ terminals))).foldl deleteVertex h,
      b || ls.any (fun x => decide (x ∉ terminals))) := by
  induction ls generalizing h b with
  | nil => simp [prune]
  | cons x ls ih =>
    rw [prune]
    by_cases hx : x ∉ terminals
    · rw [if_pos hx, ih]
      simp [hx]
    · rw [if_neg hx, ih]
      simp [not_not.1 hx]

theorem tail_leaves {l j : ℕ} (hj : j ≤ l) {h : Graph ℕ ℤ} (ht : TreeGraph 1 h (tailVerts l j) (tailTree l j)) (x : ℕ) :
    x ∈ leaves h ∧ x ∉ [0, l + 1, l + 3] ↔ x = j ∧ j ≠ 0 := by
  rw [ht.mem_leaves (tailTree_spanning l j hj), mem_tailVerts]
  simp only [List.mem_cons, List.not_mem_nil, or_false, not_or]
  constructor
  · rintro ⟨⟨⟨h1, h2⟩, e, he1, he2, he3⟩, h3, h4, h5⟩
    by_cases hx : x = l + 2
    · have k1 := he3 (l + 1, l + 2) ((mem_tailTree _ _ _ _).2 (by omega)) (Or.inr hx.symm)
      have k2 := he3 (l + 2, l + 3) ((mem_tailTree _ _ _ _).2 (by omega)) (Or.inl hx.symm)
      rw [← k2, Prod.mk.injEq] at k1
      omega
    · by_cases hxj : x = j
      · omega
      · have k1 := he3 (x - 1, x) ((mem_tailTree _ _ _ _).2 (by omega)) (Or.inr rfl)
        have k2 := he3 (x, x + 1) ((mem_tailTree _ _ _ _).2 (by omega)) (Or.inl rfl)
        rw [← k2, Prod.mk.injEq] at k1
        omega
  · rintro ⟨rfl, h0⟩
    refine ⟨⟨⟨by omega, by omega⟩, (x - 1, x), (mem_tailTree _ _ _ _).2 (by omega), Or.inr rfl, ?_⟩, by omega, by omega, by omega⟩
    rintro ⟨a, b⟩ hf hab
    rw [mem_tailTree] at hf
    dsimp only at hab
    rw [Prod.mk.injEq]
    omega

/-- In every round one vertex of the tail is removed. -/
theorem tail_prune {ord : Finset ℕ → List ℕ} (hord : ∀ S, (ord S).Nodup ∧ ∀ x, x ∈ ord S ↔ x ∈ S) (l : ℕ) :
    ∀ (j : ℕ), j ≤ l → ∀ (h : Graph ℕ ℤ) (k : ℕ), TreeGraph 1 h (tailVerts l j) (tailTree l j) →
      ∃ h' c, pruneLoopC ord [0, l + 1, l + 3] h k = some (h', k + c) ∧ 2 * c = (j + 1) * (j + 8) := by
  intro j
  induction j with
  | zero =>
    intro hj h k ht
    have hnil : (ord (leaves h)).filter (fun x => decide (x ∉ [0, l + 1, l + 3])) = [] := by
      rw [List.filter_eq_nil_iff]
      intro x hx hd
      exact ((tail_leaves hj ht x).1 ⟨((hord _).2 x).1 hx, of_decide_eq_true hd⟩).2 rfl
    have hany : (ord (leaves h)).any (fun x => decide (x ∉ [0, l + 1, l + 3])) = false := by
      rw [List.any_eq_false]
      intro x hx hd
      exact ((tail_leaves hj ht x).1 ⟨((hord _).2 x).1 hx, of_decide_eq_true hd⟩).2 rfl
    refine ⟨h, 4, ?_, by norm_num⟩
    rw [pruneLoopC, prune_eq, hnil, hany]
    simp only [List.foldl_nil, Bool.or_false]
    rw [ht.numVertices, card_tailVerts l 0 hj]
  | succ j ih =>
    intro hj h k ht
    have hperm : ((ord (leaves h)).filter (fun x => decide (x ∉ [0, l + 1, l + 3]))).Perm [j + 1] :=
      (List.perm_ext_iff_of_nodup ((hord _).1.filter _) (List.nodup_singleton _)).2 (fun x => by
        rw [List.mem_filter, (hord _).2, decide_eq_true_iff, tail_leaves hj ht, List.mem_singleton]
        exact ⟨And.left, fun e => ⟨e, by omega⟩⟩)
    have hone := List.perm_singleton.1 hperm
    have hany : (ord (leaves h)).any (fun x => decide (x ∉ [0, l + 1, l + 3])) = true := by
      rw [List.any_eq_true]
      have : j + 1 ∈ (ord (leaves h)).filter (fun x => decide (x ∉ [0, l + 1, l + 3])) := by rw [hone]; exact List.mem_singleton_self _
      obtain ⟨h1, h2⟩ := List.mem_filter.1 this
      exact ⟨_, h1, h2⟩
    have hdel : TreeGraph 1 (deleteVertex h (j + 1)) (tailVerts l j) (tailTree l j) := by
      have := ht.delete (tailTree_spanning l (j + 1) hj) (x := j + 1) (e := (j, j + 1)) ⟨(mem_tailTree _ _ _ _).2 (by omega), Or.inr rfl, by
        rintro ⟨a, b⟩ hf hab
        rw [mem_tailTree] at hf
        dsimp only at hab
        rw [Prod.mk.injEq]
        omega⟩
      have e1 : (tailVerts l (j + 1)).erase (j + 1) = tailVerts l j := by
        ext v; rw [Finset.mem_erase, mem_tailVerts, mem_tailVerts]; omega
      have e2 : (tailTree l (j + 1)).erase (j, j + 1) = tailTree l j := by
        ext ⟨a, b⟩; rw [Finset.mem_erase, mem_tailTree, mem_tailTree, ne_eq, Prod.mk.injEq]; omega
      rw [e1, e2] at this
      exact this
    obtain ⟨h', c, h1, h2⟩ := ih (by omega) (deleteVertex h (j + 1)) (k + (j + 5)) hdel
    refine ⟨h', j + 5 + c, ?_, by rw [Nat.mul_add, h2]; ring⟩
    rw [pruneLoopC, prune_eq, hone, hany]
    simp only [List.foldl_cons, List.foldl_nil, Bool.or_true]
    rw [ht.numVertices, card_tailVerts l (j + 1) hj, show j + 1 + 4 = j + 5 by omega, h1, Nat.add_assoc]

/-! ### The distances -/

theorem walk_potential {V : Type} {A : V → V → Option ℤ} (f : V → ℤ) (hf : ∀ u v x, A u v = some x → f v ≤ f u + x) {s v : V}
    {p : List V} {c : ℤ} (h : WalkOf A s p v c) : f v ≤ f s + c := by
  induction h with
  | start => simp
  | step _ hx ih =>
    have := hf _ _ _ hx
    linarith

theorem tail_walk (l : ℕ) : ∀ i ≤ l, ∃ p, WalkOf (adj (history (tailOps l))) 0 p i (i : ℤ) := by
  intro i
  induction i with
  | zero => intro _; exact ⟨_, WalkOf.start⟩
  | succ i ih =>
    intro hi
    obtain ⟨p, hp⟩ := ih (by omega)
    have := WalkOf.step hp (tail_edge (l := l) (u := i) (v := i + 1) (x := 1) (Or.inl ⟨rfl, by omega, rfl⟩))
    exact ⟨_, by rw [Nat.cast_succ]; exact this⟩

theorem tail_shortest (l u v : ℕ) (hu : u < l + 4) (hv : v < l + 4) :
    IsShortest (adj (history (tailOps l))) u v (dist (adj (history (tailOps l))) u v) :=
  isShortest_dist (history_spec (tailOps l)).1 (fun u v x h => (tail_pos l u v x h).le) ((tail_mem l u).2 hu) ((tail_mem l v).2 hv)
    (tail_reach l u v hu hv)

theorem tail_dist1 (l : ℕ) : dist (adj (history (tailOps l))) 0 (l + 1) ≤ 2 * l + 4 := by
  obtain ⟨p, hp⟩ := tail_walk l l le_rfl
  have := WalkOf.step hp (tail_edge (l := l) (u := l) (v := l + 1) (x := l + 4) (Or.inr (Or.inl ⟨rfl, rfl, rfl⟩)))
  have := (tail_shortest l 0 (l + 1) (by omega) (by omega)).2 _ _ this
  linarith

theorem tail_dist3 (l : ℕ) : (2 * l + 5 : ℤ) ≤ dist (adj (history (tailOps l))) 0 (l + 3) := by
  obtain ⟨p, hp⟩ := (tail_shortest l 0 (l + 3) (by omega) (by omega)).1
  have := walk_potential (fun v : ℕ => if v ≤ l then (v : ℤ) else if v = l + 1 then 2 * l + 4 else if v = l + 2 then l + 3 else 2 * l + 5)
    (fun u v x h => ?_) hp
  · rw [if_neg (by omega), if_neg (by omega), if_neg (by omega), if_pos (by omega)] at this
    simpa using this
  · rw [tail_weight] at h
    rcases h with (h | h | h | h | h) | (h | h | h | h | h) <;> obtain ⟨h1, h2, h3⟩ := h <;> split_ifs <;> omega

/-- The path from 0 to `l + 1` in the distance network runs through the tail. -/
theorem tail_path (l : ℕ) {L : List (ℕ × ℕ)}
    (hL : PathTo (history (tailOps l)) 0 (l + 1) (dist (adj (history (tailOps l))) 0 (l + 1)) L) (i : ℕ) (h1 : 1 ≤ i) (h2 : i ≤ l) :
    i ∈ ends L := by
  by_contra hi
  have hT : ∀ a b, (a, b) ∈ (L.map norm).toFinset → a ≠ i ∧ b ≠ i ∧ (∃ x, TailEdge l a b x) ∧ ∃ f ∈ L, norm f = (a, b) := by
    intro a b hab
    rw [List.mem_toFinset, List.mem_map] at hab
    obtain ⟨f, hf, hn⟩ := hab
    have hle : a ≤ b := by
      rw [norm, pair, Prod.mk.injEq] at hn
      rw [← hn.1, ← hn.2]; exact min_le_max
    obtain ⟨w, hw⟩ := hL.edge f hf
    rw [← weight_pair (history_spec (tailOps l)).1, show pair f.1 f.2 = (a, b) from hn] at hw
    have h1 : f.1 ≠ i := fun h => hi (mem_ends.2 ⟨f, hf, Or.inl h.symm⟩)
    have h2 : f.2 ≠ i := fun h => hi (mem_ends.2 ⟨f, hf, Or.inr h.symm⟩)
    rcases norm_cases f with hc | hc
    · rw [hc] at hn; rw [hn] at h1 h2
      exact ⟨h1, h2, ⟨w, (tail_lt hle w).1 hw⟩, f, hf, by rw [hc, hn]⟩
    · rw [hc, Prod.mk.injEq] at hn; rw [hn.1] at h2; rw [hn.2] at h1
      exact ⟨h2, h1, ⟨w, (tail_lt hle w).1 hw⟩, f, hf, by rw [hc, Prod.mk.injEq]; exact hn⟩
  have hj := hL.joined 0 (Or.inl rfl)
  have k1 : (0, l + 2) ∈ (L.map norm).toFinset := by
    by_contra hc
    have := hj.const (fun v => v < i) (fun a b hab => by
      obtain ⟨e1, e2, ⟨x, e3⟩, -⟩ := hT a b hab
      have hne : ¬ (a = 0 ∧ b = l + 2) := by rintro ⟨rfl, rfl⟩; exact hc hab
      rw [eq_iff_iff]
      rcases e3 with h | h | h | h | h <;> obtain ⟨h3, h4, -⟩ := h <;> omega)
    rw [eq_iff_iff] at this
    omega
  have k2 : (l + 1, l + 2) ∈ (L.map norm).toFinset := by
    by_contra hc
    have := hj.const (fun v => i < v ∧ v ≤ l + 1) (fun a b hab => by
      obtain ⟨e1, e2, ⟨x, e3⟩, -⟩ := hT a b hab
      have hne : ¬ (a = l + 1 ∧ b = l + 2) := by rintro ⟨rfl, rfl⟩; exact hc hab
      rw [eq_iff_iff]
      rcases e3 with h | h | h | h | h <;> obtain ⟨h3, h4, -⟩ := h <;> omega)
    rw [eq_iff_iff] at this
    omega
  obtain ⟨-, -, -, f, hf, f1⟩ := hT _ _ k1
  obtain ⟨-, -, -, f', hf', f2⟩ := hT _ _ k2
  have hne : f ≠ f' := by
    rintro rfl
    rw [f1, Prod.mk.injEq] at f2
    omega
  have hw1 : adj (history (tailOps l)) f.1 f.2 = some ((l : ℤ) + 3) := by
    rw [← weight_pair (history_spec (tailOps l)).1, show pair f.1 f.2 = _ from f1]
    exact tail_edge (Or.inr (Or.inr (Or.inr (Or.inr ⟨rfl, rfl, rfl⟩))))
  have hw2 : adj (history (tailOps l)) f'.1 f'.2 = some ((l : ℤ) + 2) := by
    rw [← weight_pair (history_spec (tailOps l)).1, show pair f'.1 f'.2 = _ from f2]
    exact tail_edge (Or.inr (Or.inr (Or.inl ⟨rfl, rfl, rfl⟩)))
  have hsum := sum_toFinset_le (fun e => (adj (history (tailOps l)) e.1 e.2).getD 0)
    (fun e => getD_nonneg (fun u v x h => (tail_pos l u v x h).le) _ _) L (T := {f, f'}) (by
      intro e he
      rw [Finset.mem_insert, Finset.mem_singleton] at he
      rw [List.mem_toFinset]
      rcases he with rfl | rfl
      · exact hf
      · exact hf')
  rw [Finset.sum_pair hne, hL.sum, hw1, hw2, Option.getD_some, Option.getD_some] at hsum
  have := tail_dist1 l
  linarith

/-- All vertices are in the tree that is given to `_improve`. -/
theorem tail_ends (l : ℕ) {B : ℕ → ℕ → Option ℤ} {mst L es : List (ℕ × ℕ)}
    (hs : Stages (history (tailOps l)) {0, l + 1, l + 3} [0, l + 1, l + 3] B mst L es) : ends es = Finset.range (l + 4) := by
  have hR : ∀ x, x ∈ ({0, l + 1, l + 3} : Finset ℕ) ↔ x = 0 ∨ x = l + 1 ∨ x = l + 3 := by intro x; simp
  have hcR : ({0, l + 1, l + 3} : Finset ℕ).card = 3 := by
    rw [Finset.card_eq_three]
    exact ⟨_, _, _, by omega, by omega, by omega, rfl⟩
  have b1 := hs.dist 0 ((hR _).2 (by omega)) (l + 1) ((hR _).2 (by omega)) (by omega)
  have b2 := hs.dist 0 ((hR _).2 (by omega)) (l + 3) ((hR _).2 (by omega)) (by omega)
  have b3 := hs.dist (l + 1) ((hR _).2 (by omega)) (l + 3) ((hR _).2 (by omega)) (by omega)
  have hin : (0, l + 1) ∈ mst := by
    by_contra hc
    have hsub : mst.toFinset ⊆ {(0, l + 3), (l + 1, l + 3)} := by
      rintro ⟨a, b⟩ he
      obtain ⟨h1, h2, h3, -⟩ := hs.min.tree.edge a b he
      rw [hR] at h2 h3
      have hne : ¬ (a = 0 ∧ b = l + 1) := by rintro ⟨rfl, rfl⟩; exact hc (List.mem_toFinset.1 he)
      rw [Finset.mem_insert, Finset.mem_singleton, Prod.mk.injEq, Prod.mk.injEq]
      omega
    have hcard := hs.min.tree.card
    rw [hcR] at hcard
    have hp : ((0, l + 3) : ℕ × ℕ) ≠ (l + 1, l + 3) := by rw [ne_eq, Prod.mk.injEq]; omega
    have heq : mst.toFinset = {(0, l + 3), (l + 1, l + 3)} :=
      Finset.eq_of_subset_of_card_le hsub (by rw [Finset.card_pair hp]; omega)
    have hp' : ((0, l + 1) : ℕ × ℕ) ≠ (l + 1, l + 3) := by rw [ne_eq, Prod.mk.injEq]; omega
    have j1 : Joined ({(0, l + 1), (l + 1, l + 3)} : Finset (ℕ × ℕ)) 0 (l + 1) := Joined.of_mem (by simp)
    have j2 : Joined ({(0, l + 1), (l + 1, l + 3)} : Finset (ℕ × ℕ)) (l + 1) (l + 3) := Joined.of_mem (by simp)
    have j0 : ∀ u ∈ ({0, l + 1, l + 3} : Finset ℕ), Joined ({(0, l + 1), (l + 1, l + 3)} : Finset (ℕ × ℕ)) 0 u := by
      intro u hu
      rcases (hR u).1 hu with rfl | rfl | rfl
      · exact Joined.refl _ _
      · exact j1
      · exact j1.trans j2
    have hmin := hs.min.min {(0, l + 1), (l + 1, l + 3)} ⟨fun u v huv => by
        rw [Finset.mem_insert, Finset.mem_singleton, Prod.mk.injEq, Prod.mk.injEq] at huv
        rcases huv with ⟨rfl, rfl⟩ | ⟨rfl, rfl⟩
        · exact ⟨by omega, (hR _).2 (by omega), (hR _).2 (by omega), _, b1⟩
        · exact ⟨by omega, (hR _).2 (by omega), (hR _).2 (by omega), _, b3⟩,
      fun u hu v hv => (j0 u hu).symm.trans (j0 v hv), by rw [Finset.card_pair hp', hcR]⟩
    rw [heq, totalWeight, totalWeight, Finset.sum_pair hp, Finset.sum_pair hp', b1, b2, b3, Option.getD_some, Option.getD_some,
      Option.getD_some] at hmin
    have h1 := tail_dist1 l
    have h3 := tail_dist3 l
    linarith
  obtain ⟨L0, hL0, hL0s⟩ := hs.paths.walk (0, l + 1) hin
  have hle : ∀ x ∈ ends L, x < l + 4 := by
    intro x hx
    rw [← tail_mem l]
    obtain ⟨e, he, h1⟩ := mem_ends.1 hx
    obtain ⟨w, hw⟩ := hs.paths.edge e he
    rcases h1 with rfl | rfl
    · exact mem_of_adj hw
    · exact (history_spec (tailOps l)).1.mem_right hw
  rw [hs.ends]
  ext x
  rw [Finset.mem_range]
  refine ⟨hle x, fun hx => ?_⟩
  by_cases h1 : 1 ≤ x ∧ x ≤ l
  · obtain ⟨e, he, h2⟩ := mem_ends.1 (tail_path l hL0 x h1.1 h1.2)
    exact mem_ends.2 ⟨e, hL0s e he, h2⟩
  · by_cases h2 : x = l + 2
    · have h3 : l + 3 ∈ ends L := hs.sub ((hR _).2 (by omega))
      have h4 : 0 ∈ ends L := hs.sub ((hR _).2 (by omega))
      obtain ⟨⟨a, b⟩, he, h5⟩ := hs.tree.exists_edge h3 h4 (by omega)
      obtain ⟨k1, k2, k3, w, k4⟩ := hs.tree.edge a b he
      rw [tail_lt k1.le] at k4
      dsimp only at h5
      have : a = l + 2 := by
        rcases k4 with h | h | h | h | h <;> obtain ⟨h6, h7, -⟩ := h <;> omega
      rw [h2, ← this]; exact k2
    · exact hs.sub ((hR x).2 (by omega))

/-- On the graph with a tail of `l` vertices the search for leaves looks at `(l + 1) (l + 8) / 2` vertices. -/
theorem tail_count {ord : Finset ℕ → List ℕ} (hord : ∀ S, (ord S).Nodup ∧ ∀ x, x ∈ ord S ↔ x ∈ S) (l : ℕ) :
    ∃ r k, distanceNetworkC ord 1 (history (tailOps l)) [0, l + 1, l + 3] = some (.ok r, k) ∧ 2 * k = (l + 1) * (l + 8) := by
  have hg := (history_spec (tailOps l)).1
  have hA : ∀ u v x, adj (history (tailOps l)) u v = some x → 0 ≤ x := fun u v x h => (tail_pos l u v x h).le
  have hR : ∀ v, v ∈ ({0, l + 1, l + 3} : Finset ℕ) ↔ v ∈ [0, l + 1, l + 3] ∧
      Reach (fun a b => ∃ w, adj (history (tailOps l)) a b = some w) 0 v := by
    intro v
    have hv : v ∈ ({0, l + 1, l + 3} : Finset ℕ) ↔ v ∈ [0, l + 1, l + 3] := by simp
    rw [hv]
    refine ⟨fun h => ⟨h, tail_reach l 0 v (by omega) ?_⟩, And.left⟩
    simp only [List.mem_cons, List.not_mem_nil, or_false] at h
    omega
  have hcR : ({0, l + 1, l + 3} : Finset ℕ).card = 3 := by
    rw [Finset.card_eq_three]
    exact ⟨_, _, _, by omega, by omega, by omega, rfl⟩
  obtain ⟨B, mst, L, es, hs, -, e2⟩ := (distanceNetwork_stages hg hA 0 [l + 1, l + 3] (fun u hu => by
    rw [tail_mem]
    simp only [List.mem_cons, List.not_mem_nil, or_false] at hu
    omega) hR).1 (by omega)
  have hends := tail_ends l hs
  have hj := hs.tree.joined
  rw [← hs.ends] at hj
  obtain ⟨h0, T0, f1, f2, f3⟩ := improve_stages hord hg 1 [0, l + 1, l + 3] es (by rw [hends, Finset.card_range]; omega)
    (fun e he => (hs.tree.edge e.1 e.2 (List.mem_toFinset.2 he)).2.2.2) hj
  rw [hends] at f1 f2
  have hT0 := tail_mst l f2
  subst hT0
  rw [← tailVerts_self] at f1
  obtain ⟨h1, c, p1, p2⟩ := tail_prune hord l l le_rfl h0 0 f1
  obtain ⟨h2, S', T', c', k1, k2, k3, k4, -⟩ := pruneLoopC_spec hord hA 1 [0, l + 1, l + 3] (R := {0, l + 1, l + 3}) (by omega) _ h0 _ _ 0 rfl f1
    (tailTree_spanning l l le_rfl) (fun x hx => by
      rw [mem_tailVerts]
      simp only [Finset.mem_insert, Finset.mem_singleton] at hx
      omega) (fun x _ => by simp)
  rw [p1] at k2
  simp only [Option.some.injEq, Prod.mk.injEq, Nat.zero_add] at k2
  obtain ⟨rfl, rfl⟩ := k2
  rw [Nat.zero_add] at p1
  obtain ⟨r, -, r2⟩ := f3 h1 S' T' c k1 p1 k3 k4.tree
  exact ⟨r, c, by rw [e2]; exact r2, p2⟩

theorem tail_numVertices (l : ℕ) : numVertices (history (tailOps l)) = l + 4 := by
  have hperm : (Dict.keys (history (tailOps l))).Perm (List.range (l + 4)) :=
    (List.perm_ext_iff_of_nodup (history_spec (tailOps l)).1.wf List.nodup_range).2 (fun v => by
      rw [List.mem_range]; exact tail_mem l v)
  rw [numVertices, ← List.length_range (n := l + 4), ← hperm.length_eq, Dict.keys, List.length_map]

theorem tail_numEdges (l : ℕ) : numEdges (history (tailOps l)) = l + 4 := by
  have hne : (l, l + 1) ∉ tailTree l l := by rw [mem_tailTree]; omega
  have : edgeSet (history (tailOps l)) = insert (l, l + 1) (tailTree l l) := by
    ext ⟨a, b⟩
    rw [mem_edgeSet (history_spec (tailOps l)).1, Finset.mem_insert, Prod.mk.injEq]
    constructor
    · rintro ⟨h1, w, h2⟩
      rw [tail_lt h1] at h2
      rw [mem_tailTree]
      rcases h2 with h | h | h | h | h <;> obtain ⟨h6, h7, -⟩ := h <;> omega
    · rintro (⟨rfl, rfl⟩ | h)
      · exact ⟨by omega, _, tail_edge (Or.inr (Or.inl ⟨rfl, rfl, rfl⟩))⟩
      · obtain ⟨h1, -, -, h2⟩ := (tailTree_spanning l l le_rfl).edge a b h
        exact ⟨h1.le, h2⟩
  rw [numEdges, this, Finset.card_insert_of_notMem hne, card_tailTree l l le_rfl]

/-- C181 is violated: for every constant `c` there is a connected graph with positive weights and a list of `t` terminals for
which `distance_network_heuristic` looks at more than `c t |E| log |V|` vertices while it removes leaves. -/
theorem C181_time_violation {ord : Finset ℕ → List ℕ} (hord : ∀ S, (ord S).Nodup ∧ ∀ x, x ∈ ord S ↔ x ∈ S) (c : ℕ) :
    ∃ (ops : List (Op ℕ ℤ)) (terminals : List ℕ) (r : ℤ × List (ℕ × ℕ)) (k : ℕ),
      (∀ u v x, (toAbs (history ops)).weight u v = some x → 0 < x) ∧
      (∀ u ∈ (toAbs (history ops)).verts, ∀ v ∈ (toAbs (history ops)).verts, Reach (EdgeOf ops) u v) ∧
      terminals.Nodup ∧ (∀ u ∈ terminals, u ∈ (toAbs (history ops)).verts) ∧
      distanceNetworkC ord 1 (history ops) terminals = some (.ok r, k) ∧
      c * terminals.length * numEdges (history ops) * Nat.log 2 (numVertices (history ops)) < k := by
  have hpow : ∀ i : ℕ, (i + 4) * (i + 4) ≤ 2 ^ (i + 4) := by
    intro i
    induction i with
    | zero => norm_num
    | succ i ih => rw [show i + 1 + 4 = (i + 4) + 1 by ring, pow_succ]; nlinarith
  obtain ⟨j, hj, hj4⟩ : ∃ j, 6 * c * j < 2 ^ j ∧ 16 ≤ 2 ^ j := by
    have h := hpow (6 * c)
    refine ⟨6 * c + 4, by nlinarith, ?_⟩
    calc 16 = 2 ^ 4 := rfl
      _ ≤ 2 ^ (6 * c + 4) := Nat.pow_le_pow_right (by norm_num) (by omega)
  obtain ⟨l, hl⟩ : ∃ l, 2 ^ j = l + 4 := ⟨2 ^ j - 4, by omega⟩
  obtain ⟨r, k, h1, h2⟩ := tail_count hord l
  have hv : ∀ u, u ∈ (toAbs (history (tailOps l))).verts ↔ u < l + 4 := tail_mem l
  refine ⟨tailOps l, [0, l + 1, l + 3], r, k, tail_pos l, fun u hu v hv' => tail_reach l u v ((hv u).1 hu) ((hv v).1 hv'), by simp, fun u hu => ?_, h1, ?_⟩
  · rw [hv]
    simp only [List.mem_cons, List.not_mem_nil, or_false] at hu
    omega
  · have hlog : Nat.log 2 (l + 4) = j := by rw [← hl, Nat.log_pow (by norm_num)]
    rw [tail_numVertices, tail_numEdges, hlog]
    simp only [List.length_cons, List.length_nil]
    have h3 : 6 * c * j + 1 ≤ l + 4 := by omega
    have h4 : 12 ≤ l := by omega
    have h5 : 2 * (c * (0 + 1 + 1 + 1) * (l + 4) * j) = (6 * c * j) * (l + 4) := by ring
    have h6 : (6 * c * j) * (l + 4) < 2 * k := by rw [h2]; nlinarith
    omega

/-- With a tail of three vertices: 22 vertices are looked at, and the bound for seven vertices is 28. -/
example (ord : Finset ℕ → List ℕ) (hord : ∀ S, (ord S).Nodup ∧ ∀ x, x ∈ ord S ↔ x ∈ S) :
    ∃ r, distanceNetworkC ord 1 (history (tailOps 3)) [0, 4, 6] = some (.ok r, 22) ∧
      numVertices (history (tailOps 3)) * (numVertices (history (tailOps 3)) + 1) = 2 * 28 := by
  obtain ⟨r, k, h1, h2⟩ := tail_count hord 3
  have hk : k = 22 := by omega
  exact ⟨r, hk ▸ h1, by rw [tail_numVertices]⟩

end Rosemary.Props
