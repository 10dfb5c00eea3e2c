import Verif.Lemmas.CheritonCosts
import Verif.Props.CheritonTarjan
import Verif.Props.Graph
import Mathlib.Tactic.Ring
import Mathlib.Tactic.Linarith
import Mathlib.Data.Nat.Log

/-!
# C182: the keys copied by `cheriton_tarjan`
-/

namespace Rosemary.Props

open Rosemary.Graph Rosemary.SpanningTrees Rosemary.Spec Rosemary.Paths

section

variable {V W : Type} [LinearOrder V] [AddCommMonoid W] [LinearOrder W] [IsOrderedCancelAddMonoid W]

/-- C182: on a connected graph in which every vertex has two neighbours `cheriton_tarjan` copies exactly
`|V| (|V| + 1) / 2 - 1` keys, whatever `choice` returns.  Missing is the bound `O(|E| log log |V|)` of the docstring, which is
false. -/
theorem C182_keys_partial {ch : ℕ → List V → V} (hch : ∀ i l, l ≠ [] → ch i l ∈ l) (ops : List (Op V W))
    (hne : (toAbs (history ops)).verts ≠ ∅)
    (hdeg : ∀ u ∈ (toAbs (history ops)).verts, ∃ a b, a ≠ b ∧ EdgeOf ops u a ∧ EdgeOf ops u b)
    (hc : ∀ u ∈ (toAbs (history ops)).verts, ∀ v ∈ (toAbs (history ops)).verts, Reach (EdgeOf ops) u v) :
    ∃ r k, cheritonTarjan ch (history ops) = some (.ok r) ∧ cheritonTarjanC ch (history ops) = some (.ok r, k) ∧
      2 * k + 2 = numVertices (history ops) * (numVertices (history ops) + 1) := by
  obtain ⟨total, edges, h1, -⟩ := C107_cheriton_tarjan_partial hch ops hne hdeg hc
  have hpos : 0 < numVertices (history ops) := by
    obtain ⟨v, hv⟩ := Set.nonempty_iff_ne_empty.2 hne
    have := List.length_pos_of_mem (show v ∈ Dict.keys (history ops) from hv)
    rwa [Dict.keys, List.length_map] at this
  obtain ⟨k, h2, h3⟩ := cheritonTarjanC_spec ch (history_spec ops).1 hpos h1
  exact ⟨_, k, h1, h2, h3⟩

end

/-! ### Cycles -/

/-- The cycle `0, 1, ..., n + 2`. -/
def ringOps (n : ℕ) : List (Op ℕ ℤ) := [.addEdges ((List.range (n + 2)).map (fun i => (i, i + 1, 1))), .addEdge 0 (n + 2) 1]

theorem ring_adj (n u v : ℕ) : adj (history (ringOps n)) u v =
    if 0 = u ∧ n + 2 = v ∨ n + 2 = u ∧ 0 = v then some 1
    else if (v = u + 1 ∧ u < n + 2) ∨ (u = v + 1 ∧ v < n + 2) then some 1 else none := by
  have hmem : ∀ a b : ℕ, ((a, b, (1 : ℤ)) ∈ (List.range (n + 2)).map (fun i => (i, i + 1, (1 : ℤ)))) ↔ b = a + 1 ∧ a < n + 2 := by
    intro a b
    simp only [List.mem_map, List.mem_range, Prod.mk.injEq]
    constructor
    · rintro ⟨i, hi, h1, h2, -⟩; omega
    · rintro ⟨rfl, h1⟩; exact ⟨a, h1, rfl, rfl, trivial⟩
  have h : adj (history (ringOps n)) u v =
      adj (addEdge (addEdges ([] : Graph ℕ ℤ) ((List.range (n + 2)).map (fun i => (i, i + 1, 1)))) 0 (n + 2) 1) u v := rfl
  rw [h, adj_addEdge, adj_addEdges_const _ _ 1 (by
    intro e he
    obtain ⟨i, -, rfl⟩ := List.mem_map.1 he
    rfl), adj_empty]
  simp only [hmem]

theorem ring_edge (n u v : ℕ) : EdgeOf (ringOps n) u v ↔
    (u = 0 ∧ v = n + 2) ∨ (u = n + 2 ∧ v = 0) ∨ (v = u + 1 ∧ u < n + 2) ∨ (u = v + 1 ∧ v < n + 2) := by
  show (∃ w, adj (history (ringOps n)) u v = some w) ↔ _
  rw [ring_adj]
  constructor
  · rintro ⟨w, hw⟩
    split_ifs at hw with h1 h2
    · omega
    · omega
  · intro h
    by_cases h1 : 0 = u ∧ n + 2 = v ∨ n + 2 = u ∧ 0 = v
    · exact ⟨1, if_pos h1⟩
    · exact ⟨1, by rw [if_neg h1, if_pos (by omega)]⟩

theorem ring_mem (n v : ℕ) : v ∈ (toAbs (history (ringOps n))).verts ↔ v < n + 3 := by
  have h : v ∈ (toAbs (history (ringOps n))).verts ↔
      Mem (addEdge (addEdges ([] : Graph ℕ ℤ) ((List.range (n + 2)).map (fun i => (i, i + 1, 1)))) 0 (n + 2) 1) v := Iff.rfl
  rw [h, mem_addEdge, mem_addEdges]
  have h0 : ¬ Mem ([] : Graph ℕ ℤ) v := by simp [Mem, Dict.keys]
  have h1 : (∃ e ∈ (List.range (n + 2)).map (fun i => (i, i + 1, (1 : ℤ))), v = e.1 ∨ v = e.2.1) ↔ v ≤ n + 2 := by
    constructor
    · rintro ⟨e, he, h1⟩
      obtain ⟨i, hi, rfl⟩ := List.mem_map.1 he
      rw [List.mem_range] at hi
      dsimp only at h1
      omega
    · intro h2
      by_cases hv : v < n + 2
      · exact ⟨_, List.mem_map.2 ⟨v, List.mem_range.2 hv, rfl⟩, Or.inl rfl⟩
      · exact ⟨_, List.mem_map.2 ⟨n + 1, List.mem_range.2 (by omega), rfl⟩, Or.inr (by dsimp only; omega)⟩
  rw [h1]
  simp only [h0, or_false]
  omega

theorem ring_reach (n : ℕ) : ∀ u < n + 3, ∀ v < n + 3, Reach (EdgeOf (ringOps n)) u v := by
  have h0 : ∀ u, u < n + 3 → Reach (EdgeOf (ringOps n)) 0 u := by
    intro u
    induction u with
    | zero => exact fun _ => Reach.refl _ _
    | succ u ih => exact fun hu => (ih (by omega)).step ((ring_edge n u (u + 1)).2 (by omega))
  have hs : ∀ a b, EdgeOf (ringOps n) a b → EdgeOf (ringOps n) b a := by
    intro a b h
    rw [ring_edge] at h ⊢
    omega
  exact fun u hu v hv => ((h0 u hu).symm hs).trans (h0 v hv)

theorem ring_deg (n : ℕ) : ∀ u < n + 3, ∃ a b, a ≠ b ∧ EdgeOf (ringOps n) u a ∧ EdgeOf (ringOps n) u b := by
  intro u hu
  simp only [ring_edge]
  by_cases h0 : u = 0
  · exact ⟨1, n + 2, by omega, by omega, by omega⟩
  · by_cases h1 : u = n + 2
    · exact ⟨0, n + 1, by omega, by omega, by omega⟩
    · exact ⟨u - 1, u + 1, by omega, by omega, by omega⟩

theorem ring_numVertices (n : ℕ) : numVertices (history (ringOps n)) = n + 3 := by
  have hperm : (Dict.keys (history (ringOps n))).Perm (List.range (n + 3)) :=
    (List.perm_ext_iff_of_nodup (history_spec (ringOps n)).1.wf List.nodup_range).2 (fun v => by
      rw [List.mem_range]; exact ring_mem n v)
  rw [numVertices, ← List.length_range (n := n + 3), ← hperm.length_eq, Dict.keys, List.length_map]

theorem ring_numEdges (n : ℕ) : numEdges (history (ringOps n)) = n + 3 := by
  have hne : (0, n + 2) ∉ (Finset.range (n + 2)).image (fun i => (i, i + 1)) := by
    simp only [Finset.mem_image, Prod.mk.injEq, not_exists]
    intro i h
    omega
  have : edgeSet (history (ringOps n)) = insert (0, n + 2) ((Finset.range (n + 2)).image (fun i => (i, i + 1))) := by
    ext ⟨a, b⟩
    rw [mem_edgeSet (history_spec (ringOps n)).1, Finset.mem_insert, Finset.mem_image,
      show (∃ w, adj (history (ringOps n)) a b = some w) ↔ EdgeOf (ringOps n) a b from Iff.rfl, ring_edge]
    simp only [Prod.mk.injEq, Finset.mem_range]
    constructor
    · rintro ⟨h1, h2⟩
      by_cases h3 : a = 0 ∧ b = n + 2
      · exact Or.inl h3
      · exact Or.inr ⟨a, by omega, rfl, by omega⟩
    · rintro (⟨rfl, rfl⟩ | ⟨i, hi, rfl, rfl⟩)
      · exact ⟨by omega, by omega⟩
      · exact ⟨by omega, by omega⟩
  rw [numEdges, this, Finset.card_insert_of_notMem hne, Finset.card_image_of_injective, Finset.card_range]
  intro i j h
  simp only [Prod.mk.injEq] at h
  exact h.1

theorem ring_count (n : ℕ) {ch : ℕ → List ℕ → ℕ} (hch : ∀ i l, l ≠ [] → ch i l ∈ l) :
    ∃ r k, cheritonTarjanC ch (history (ringOps n)) = some (.ok r, k) ∧ 2 * k + 2 = (n + 3) * (n + 4) := by
  obtain ⟨r, k, -, h1, h2⟩ := C182_keys_partial hch (ringOps n)
    (fun h => by
      have : 0 ∈ (toAbs (history (ringOps n))).verts := (ring_mem n 0).2 (by omega)
      rw [h] at this
      exact this)
    (fun u hu => ring_deg n u ((ring_mem n u).1 hu))
    (fun u hu v hv => ring_reach n u ((ring_mem n u).1 hu) v ((ring_mem n v).1 hv))
  rw [ring_numVertices] at h2
  exact ⟨r, k, h1, h2⟩

/-- C182 is violated: for every constant `c` there is a connected graph with positive weights on which `cheriton_tarjan` succeeds
and copies more than `c |E| log log |V|` keys, whatever `choice` returns. -/
theorem C182_time_violation (c : ℕ) : ∃ ops : List (Op ℕ ℤ),
    (∀ u v x, (toAbs (history ops)).weight u v = some x → 0 < x) ∧
    (∀ u ∈ (toAbs (history ops)).verts, ∀ v ∈ (toAbs (history ops)).verts, Reach (EdgeOf ops) u v) ∧
    ∀ ch : ℕ → List ℕ → ℕ, (∀ i l, l ≠ [] → ch i l ∈ l) → ∃ r k, cheritonTarjanC ch (history ops) = some (.ok r, k) ∧
      c * numEdges (history ops) * Nat.log 2 (Nat.log 2 (numVertices (history ops))) < k := by
  have hpow : ∀ i : ℕ, (i + 4) * (i + 4) ≤ 2 ^ (i + 4) := by
    intro i
    induction i with
    | zero => norm_num
    | succ i ih => rw [show i + 1 + 4 = (i + 4) + 1 by ring, pow_succ]; nlinarith
  obtain ⟨j, hj, hj4⟩ : ∃ j, 2 * c * j < 2 ^ j ∧ 16 ≤ 2 ^ j := by
    have h := hpow (2 * c)
    refine ⟨2 * c + 4, by nlinarith, ?_⟩
    calc 16 = 2 ^ 4 := rfl
      _ ≤ 2 ^ (2 * c + 4) := Nat.pow_le_pow_right (by norm_num) (by omega)
  obtain ⟨n, hn⟩ : ∃ n, 2 ^ j = n + 3 := ⟨2 ^ j - 3, by omega⟩
  refine ⟨ringOps n, fun u v x hx => ?_,
    fun u hu v hv => ring_reach n u ((ring_mem n u).1 hu) v ((ring_mem n v).1 hv), fun ch hch => ?_⟩
  · have h1 : adj (history (ringOps n)) u v = some x := hx
    rw [ring_adj] at h1
    split_ifs at h1 <;> (simp only [Option.some.injEq] at h1; omega)
  · obtain ⟨r, k, h1, h2⟩ := ring_count n hch
    refine ⟨r, k, h1, ?_⟩
    have hlog : Nat.log 2 (n + 3) = j := by rw [← hn, Nat.log_pow (by norm_num)]
    rw [ring_numVertices, ring_numEdges, hlog]
    have h3 : Nat.log 2 j ≤ j := Nat.log_le_self 2 j
    have h4 : c * (n + 3) * Nat.log 2 j ≤ c * (n + 3) * j := Nat.mul_le_mul_left _ h3
    have h5 : 2 * (c * (n + 3) * j) = (2 * c * j) * (n + 3) := by ring
    have h6 : (2 * c * j) * (n + 3) ≤ (n + 2) * (n + 3) := Nat.mul_le_mul_right _ (by omega)
    have h7 : 2 * k + 2 = (n + 2) * (n + 3) + 2 * (n + 3) := by rw [h2]; ring
    omega

/-- On the cycle with ten vertices 54 keys are copied for ten edges. -/
example (ch : ℕ → List ℕ → ℕ) (hch : ∀ i l, l ≠ [] → ch i l ∈ l) :
    ∃ r, cheritonTarjanC ch (history (ringOps 7)) = some (.ok r, 54) ∧ numEdges (history (ringOps 7)) = 10 := by
  obtain ⟨r, k, h1, h2⟩ := ring_count 7 hch
  have hk : k = 54 := by omega
  exact ⟨r, hk ▸ h1, ring_numEdges 7⟩

end Rosemary.Props
