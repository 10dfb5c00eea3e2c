import Verif.Model.LoopCosts
import Verif.Props.Polynomials
import Verif.Props.Paths
import Mathlib.Data.List.ProdSigma
import Mathlib.Data.List.Nodup
import Mathlib.Tactic.Linarith

/-!
# C166, C167: the work of `power_jcp` and of `floyd_warshall`
-/

namespace Rosemary.Props

open Rosemary.Polys Polynomial

/-- The inner loop makes `min (len(B) - 1) i` passes for every `i`. -/
theorem jcpLoopC_spec (B : List Int) (k : Nat) (a0 : Int) : ∀ (is : List Nat) (P : List Int) (c : Nat) (Q : List Int),
    jcpLoop B k a0 is P = .ok Q →
    jcpLoopC B k a0 is P c = (.ok Q, c + (is.map (fun i => min (B.length - 1) i)).sum) := by
  intro is
  induction is with
  | nil => intro P c Q h; rw [jcpLoop] at h; rw [jcpLoopC]; injection h with h; rw [h]; simp
  | cons i is ih =>
    intro P c Q h
    rw [jcpLoop] at h
    by_cases h0 : (i : Int) * a0 = 0
    · rw [if_pos h0] at h; cases h
    · rw [if_neg h0] at h
      rw [jcpLoopC, if_neg h0, ih _ _ _ h, List.length_range', List.map_cons, List.sum_cons,
        show min B.length (i + 1) - 1 = min (B.length - 1) i by omega, Nat.add_assoc]

theorem sum_min_le (L : ℕ) : ∀ n s, ((List.range' s n).map (fun i => min L i)).sum ≤ n * L := by
  intro n
  induction n with
  | zero => simp
  | succ n ih =>
    intro s
    rw [List.range'_succ, List.map_cons, List.sum_cons, Nat.succ_mul]
    have := ih (s + 1)
    have := Nat.min_le_left L s
    omega

theorem sum_min_large (L : ℕ) : ∀ n s, L ≤ s → ((List.range' s n).map (fun i => min L i)).sum = n * L := by
  intro n
  induction n with
  | zero => simp
  | succ n ih =>
    intro s hs
    rw [List.range'_succ, List.map_cons, List.sum_cons, Nat.succ_mul, ih _ (by omega), Nat.min_eq_left hs]
    omega

theorem sum_min_small (L : ℕ) : ∀ n s, s + n ≤ L + 1 → 2 * ((List.range' s n).map (fun i => min L i)).sum + n = n * (2 * s + n) := by
  intro n
  induction n with
  | zero => simp
  | succ n ih =>
    intro s hs
    rw [List.range'_succ, List.map_cons, List.sum_cons, Nat.min_eq_right (by omega)]
    have := ih (s + 1) (by omega)
    nlinarith

theorem lowest_degree {A : List Int} {s : ℕ} (h1 : lowest A = .ok s) (h2 : (A.drop s).getD 0 0 ≠ 0) : s < A.length := by
  by_contra hc
  rw [List.drop_eq_nil_of_le (by omega)] at h2
  simp at h2

/-- C166: for a polynomial given by `n` coefficients the recurrence takes at most `(n - 1)^2 k` passes. -/
theorem C166_power_jcp_time_partial (A : List Int) (hA : ∃ a ∈ A, a ≠ 0) (k : Nat) :
    ∃ P c m, powerJcpC A k = (.ok P, c, m) ∧ powerJcp A k = .ok P ∧ c ≤ (A.length - 1) ^ 2 * k ∧ P.length = (A.length - 1) * k + 1 ∧
      P.length ≤ m ∧ m ≤ 2 * ((A.length - 1) * k + 1) := by
  obtain ⟨P, hP, -⟩ := powerJcp_spec A hA k
  rcases lowest_spec A with ⟨h1, -⟩ | ⟨s, h1, h2, h3⟩
  · obtain ⟨a, ha, hne⟩ := hA
    exact absurd (h1 a ha) hne
  have hs := lowest_degree h1 h2
  have hP' := hP
  rw [powerJcp, h1] at hP
  dsimp only at hP
  have hlen : (A.drop s).length = A.length - s := List.length_drop
  rcases hl : jcpLoop (A.drop s) k ((A.drop s).getD 0 0) (List.range' 1 (((A.drop s).length - 1) * k + 1 - 1))
    ((List.replicate (((A.drop s).length - 1) * k + 1) 0).set 0 ((A.drop s).getD 0 0 ^ k)) with e | Q
  · rw [hl] at hP; cases hP
  · rw [hl] at hP
    dsimp only at hP
    injection hP with hP
    have hQ : Q.length = ((A.drop s).length - 1) * k + 1 := by
      obtain ⟨Q', e1, e2, -⟩ := jcpLoop_spec (k := k) h2 (((A.drop s).length - 1) * k) 1 (le_refl _)
        ((List.replicate (((A.drop s).length - 1) * k + 1) 0).set 0 ((A.drop s).getD 0 0 ^ k))
        (by rw [List.length_set, List.length_replicate]; omega)
        (by
          intro j hj
          rw [getD_set (by rw [List.length_replicate]; omega), if_pos (by omega)]
          have : j = 0 := by omega
          rw [this, coeff_pow_zero])
      rw [Nat.add_sub_cancel] at hl
      rw [e1] at hl
      injection hl with hl
      rw [← hl, e2]; omega
    have hPl : P.length = (A.length - 1) * k + 1 := by
      rw [← hP, List.length_append, List.length_replicate, hQ, hlen, ← Nat.add_assoc, ← Nat.add_mul]
      congr 2
      omega
    have hC := jcpLoopC_spec _ _ _ _ _ 0 _ hl
    refine ⟨P, 0 + ((List.range' 1 (((A.drop s).length - 1) * k + 1 - 1)).map (fun i => min ((A.drop s).length - 1) i)).sum,
      ((A.drop s).length - 1) * k + 1 + P.length, ?_, hP', ?_, hPl, ?_, ?_⟩
    · rw [powerJcpC, h1]
      dsimp only
      rw [hC]
      dsimp only
      rw [hP]
    · rw [Nat.zero_add, Nat.add_sub_cancel]
      refine (sum_min_le _ _ _).trans ?_
      rw [hlen, show (A.length - 1) ^ 2 * k = (A.length - 1) * k * (A.length - 1) by ring]
      have : A.length - s - 1 ≤ A.length - 1 := by omega
      exact Nat.mul_le_mul (Nat.mul_le_mul this le_rfl) this
    · omega
    · rw [hPl, hlen]
      have : (A.length - s - 1) * k ≤ (A.length - 1) * k := Nat.mul_le_mul (by omega) le_rfl
      omega

/-- C166: the exact number of passes for a polynomial of degree `L` with a constant term: `L^2 k - L (L - 1) / 2`. -/
theorem C166_power_jcp_passes (A : List Int) (a : Int) (ha : a ≠ 0) (k : Nat) (hk : 1 ≤ k) :
    ∃ P c m, powerJcpC (a :: A) k = (.ok P, c, m) ∧ powerJcp (a :: A) k = .ok P ∧
      2 * c + A.length * (A.length - 1) = 2 * A.length ^ 2 * k := by
  obtain ⟨P, c, m, h1, h2, -⟩ := C166_power_jcp_time_partial (a :: A) ⟨a, List.mem_cons_self, ha⟩ k
  refine ⟨P, c, m, h1, h2, ?_⟩
  have hlow : lowest (a :: A) = .ok 0 := by rw [lowest, if_neg ha]
  rw [powerJcp, hlow] at h2
  rw [powerJcpC, hlow] at h1
  simp only [List.drop_zero] at h1 h2
  rcases hl : jcpLoop (a :: A) k ((a :: A).getD 0 0) (List.range' 1 (((a :: A).length - 1) * k + 1 - 1))
    ((List.replicate (((a :: A).length - 1) * k + 1) 0).set 0 ((a :: A).getD 0 0 ^ k)) with e | Q
  · rw [hl] at h2; cases h2
  rw [jcpLoopC_spec _ _ _ _ _ 0 _ hl] at h1
  have hc := congrArg (fun x => x.2.1) h1
  dsimp only at hc
  rw [← hc, Nat.zero_add, List.length_cons, Nat.add_sub_cancel, Nat.add_sub_cancel]
  generalize A.length = L
  obtain ⟨j, rfl⟩ : ∃ j, k = j + 1 := ⟨k - 1, by omega⟩
  have hr : List.range' 1 (L * (j + 1)) = List.range' 1 L ++ List.range' (1 + L) (L * j) := by
    rw [List.range'_append_1, Nat.mul_succ, Nat.add_comm]
  rw [hr, List.map_append, List.sum_append, sum_min_large L (L * j) (1 + L) (by omega)]
  have := sum_min_small L L 1 (by omega)
  rcases L with _ | L
  · simp
  · simp only [Nat.add_sub_cancel]
    nlinarith

/-- C166 is violated for the memory: for a polynomial of degree `L ≥ 1` more than any constant number of entries is kept. -/
theorem C166_power_jcp_memory_violation (A : List Int) (hA : ∃ a ∈ A, a ≠ 0) (hL : 2 ≤ A.length) (c : ℕ) :
    ∃ k P n m, powerJcpC A k = (.ok P, n, m) ∧ c * A.length < m := by
  obtain ⟨P, n, m, h1, -, -, h2, h3, -⟩ := C166_power_jcp_time_partial A hA (c * A.length)
  refine ⟨c * A.length, P, n, m, h1, ?_⟩
  have : 1 * (c * A.length) ≤ (A.length - 1) * (c * A.length) := Nat.mul_le_mul (by omega) le_rfl
  omega

example : powerJcpC [1, 3, 2] 4 = (.ok [1, 12, 62, 180, 321, 360, 248, 96, 16], 15, 18) := by decide +kernel

/-! ## `floyd_warshall` -/

section

open Rosemary.Graph Rosemary.Paths Rosemary.Spec

variable {V W : Type} [LinearOrder V] [AddCommMonoid W] [LinearOrder W]

theorem fwInnerC_spec (u v : V) : ∀ (ws : List V) (D : Dict (V × V) (WithTop W × Option V)) (c : ℕ),
    (fwInnerC u v ws D c).1 = fwInner u v ws D ∧ (fwInnerC u v ws D c).2 ≤ c + ws.length ∧
      (∀ D', fwInner u v ws D = .ok D' → (fwInnerC u v ws D c).2 = c + ws.length) := by
  intro ws
  induction ws with
  | nil => intro D c; simp [fwInnerC, fwInner]
  | cons w ws ih =>
    intro D c
    rw [fwInnerC, fwInner]
    rcases h : fwCell u v w D with e | D1
    · refine ⟨rfl, ?_, fun D' h' => by simp at h'⟩
      simp
    · obtain ⟨h1, h2, h3⟩ := ih D1 (c + 1)
      refine ⟨h1, ?_, fun D' h' => ?_⟩
      · rw [List.length_cons]; dsimp only; omega
      · rw [List.length_cons]; dsimp only at h' ⊢; rw [h3 D' h']; omega

theorem fwMiddleC_spec (u : V) (vs : List V) : ∀ (us : List V) (D : Dict (V × V) (WithTop W × Option V)) (c : ℕ),
    (fwMiddleC u vs us D c).1 = fwMiddle u vs us D ∧ (fwMiddleC u vs us D c).2 ≤ c + us.length * vs.length ∧
      (∀ D', fwMiddle u vs us D = .ok D' → (fwMiddleC u vs us D c).2 = c + us.length * vs.length) := by
  intro us
  induction us with
  | nil => intro D c; simp [fwMiddleC, fwMiddle]
  | cons v us ih =>
    intro D c
    obtain ⟨k1, k2, k3⟩ := fwInnerC_spec u v vs D c
    rw [fwMiddleC, fwMiddle]
    rcases h : fwInnerC u v vs D c with ⟨e | D1, c1⟩
    · rw [h] at k1 k2
      dsimp only at k1 k2
      rw [← k1]
      refine ⟨rfl, ?_, fun D' h' => by simp at h'⟩
      rw [List.length_cons, Nat.succ_mul]; dsimp only; omega
    · rw [h] at k1 k2 k3
      dsimp only at k1 k2 k3
      rw [← k1]
      obtain ⟨h1, h2, h3⟩ := ih D1 c1
      have := k3 D1 k1.symm
      refine ⟨h1, ?_, fun D' h' => ?_⟩
      · rw [List.length_cons, Nat.succ_mul]; dsimp only; omega
      · rw [List.length_cons, Nat.succ_mul]; dsimp only at h' ⊢; rw [h3 D' h']; omega

theorem fwOuterC_spec (vs : List V) : ∀ (us : List V) (D : Dict (V × V) (WithTop W × Option V)) (c : ℕ),
    (fwOuterC vs us D c).1 = fwOuter vs us D ∧ (fwOuterC vs us D c).2 ≤ c + us.length * (vs.length * vs.length + 1) ∧
      (∀ D', fwOuter vs us D = .ok D' → (fwOuterC vs us D c).2 = c + us.length * (vs.length * vs.length + 1)) := by
  intro us
  induction us with
  | nil => intro D c; simp [fwOuterC, fwOuter]
  | cons u us ih =>
    intro D c
    rw [fwOuterC, fwOuter]
    rcases hd : Dict.get? D (u, u) with _ | d
    · refine ⟨rfl, ?_, fun D' h' => by simp at h'⟩
      simp
    · dsimp only
      by_cases hneg : d.1 < ((0 : W) : WithTop W)
      · rw [if_pos hneg, if_pos hneg]
        refine ⟨rfl, ?_, fun D' h' => by simp at h'⟩
        rw [List.length_cons, Nat.succ_mul]; dsimp only; omega
      · rw [if_neg hneg, if_neg hneg]
        obtain ⟨k1, k2, k3⟩ := fwMiddleC_spec u vs vs D (c + 1)
        rcases h : fwMiddleC u vs vs D (c + 1) with ⟨e | D1, c1⟩
        · rw [h] at k1 k2
          dsimp only at k1 k2
          rw [← k1]
          refine ⟨rfl, ?_, fun D' h' => by simp at h'⟩
          rw [List.length_cons, Nat.succ_mul]; dsimp only; omega
        · rw [h] at k1 k2 k3
          dsimp only at k1 k2 k3
          rw [← k1]
          obtain ⟨h1, h2, h3⟩ := ih D1 c1
          have := k3 D1 k1.symm
          refine ⟨h1, ?_, fun D' h' => ?_⟩
          · rw [List.length_cons, Nat.succ_mul]; dsimp only; omega
          · rw [List.length_cons, Nat.succ_mul]; dsimp only at h' ⊢; rw [h3 D' h']; omega

theorem fwCell_keys {u v w : V} {D D' : Dict (V × V) (WithTop W × Option V)} (h : fwCell u v w D = .ok D') :
    Dict.keys D' = Dict.keys D := by
  rw [fwCell] at h
  split at h
  · rename_i a b c h1 h2 h3
    split_ifs at h
    · injection h with h
      rw [← h, Dict.keys_set, if_pos ((Dict.get?_isSome).1 ⟨_, h1⟩)]
    · injection h with h; rw [h]
  · simp at h

theorem fwInner_keys (u v : V) : ∀ (ws : List V) {D D' : Dict (V × V) (WithTop W × Option V)}, fwInner u v ws D = .ok D' →
    Dict.keys D' = Dict.keys D := by
  intro ws
  induction ws with
  | nil => intro D D' h; rw [fwInner] at h; injection h with h; rw [h]
  | cons w ws ih =>
    intro D D' h
    rw [fwInner] at h
    rcases h1 : fwCell u v w D with e | D1
    · rw [h1] at h; simp at h
    · rw [h1] at h; rw [ih h, fwCell_keys h1]

theorem fwMiddle_keys (u : V) (vs : List V) : ∀ (us : List V) {D D' : Dict (V × V) (WithTop W × Option V)},
    fwMiddle u vs us D = .ok D' → Dict.keys D' = Dict.keys D := by
  intro us
  induction us with
  | nil => intro D D' h; rw [fwMiddle] at h; injection h with h; rw [h]
  | cons w us ih =>
    intro D D' h
    rw [fwMiddle] at h
    rcases h1 : fwInner u w vs D with e | D1
    · rw [h1] at h; simp at h
    · rw [h1] at h; rw [ih h, fwInner_keys u w vs h1]

theorem fwOuter_keys (vs : List V) : ∀ (us : List V) {D D' : Dict (V × V) (WithTop W × Option V)},
    fwOuter vs us D = .ok D' → Dict.keys D' = Dict.keys D := by
  intro us
  induction us with
  | nil => intro D D' h; rw [fwOuter] at h; injection h with h; rw [h]
  | cons u us ih =>
    intro D D' h
    rw [fwOuter] at h
    rcases hd : Dict.get? D (u, u) with _ | d
    · rw [hd] at h; simp at h
    · rw [hd] at h
      dsimp only at h
      split_ifs at h
      rcases h1 : fwMiddle u vs vs D with e | D1
      · rw [h1] at h; simp at h
      · rw [h1] at h; rw [ih h, fwMiddle_keys u vs vs h1]

theorem keys_fwStart (g : Graph V W) : Dict.keys (fwStart g) = Dict.keys g ×ˢ Dict.keys g := by
  have : ∀ l : List V, ∀ h : Graph V W, (h.flatMap (fun e => l.map (fun v => ((e.1, v), fwInit e.1 v e.2)))).map Prod.fst =
      (h.map Prod.fst) ×ˢ l := by
    intro l h
    induction h with
    | nil => rfl
    | cons e h ih =>
      rw [List.flatMap_cons, List.map_append, ih, List.map_cons, List.product_cons, List.map_map]
      rfl
  exact this _ g

/-- C167: when `floyd_warshall` returns, its dictionaries have precisely the `n^2` ordered pairs of vertices as keys. -/
theorem C167_floyd_warshall_storage (ops : List (Op V W)) (D : Dict (V × V) (WithTop W × Option V))
    (h : floydWarshall (history ops) = .ok D) :
    D.length = numVertices (history ops) ^ 2 ∧ (Dict.keys D).Nodup ∧
      ∀ u v, (u, v) ∈ Dict.keys D ↔ u ∈ (toAbs (history ops)).verts ∧ v ∈ (toAbs (history ops)).verts := by
  have hk : Dict.keys D = Dict.keys (history ops) ×ˢ Dict.keys (history ops) :=
    (fwOuter_keys _ _ h).trans (keys_fwStart _)
  refine ⟨?_, ?_, fun u v => ?_⟩
  · have := congrArg List.length hk
    rw [List.length_product, Dict.keys, Dict.keys, List.length_map, List.length_map] at this
    rw [this, numVertices, sq]
  · rw [hk]; exact (history_spec ops).1.wf.product (history_spec ops).1.wf
  · rw [hk, List.mem_product]; exact Iff.rfl

/-- C167: on a graph with `n` vertices `floyd_warshall` makes at most `n^3 + n` comparisons, and precisely that many if it
returns. -/
theorem C167_floyd_warshall_time (ops : List (Op V W)) :
    (floydWarshallC (history ops)).1 = floydWarshall (history ops) ∧
    (floydWarshallC (history ops)).2 ≤ numVertices (history ops) ^ 3 + numVertices (history ops) ∧
    ∀ D, floydWarshall (history ops) = .ok D →
      (floydWarshallC (history ops)).2 = numVertices (history ops) ^ 3 + numVertices (history ops) := by
  obtain ⟨h1, h2, h3⟩ := fwOuterC_spec (Dict.keys (history ops)) (Dict.keys (history ops)) (fwStart (history ops)) 0
  have hn : (Dict.keys (history ops)).length = numVertices (history ops) := by rw [Dict.keys, List.length_map, numVertices]
  rw [hn, show 0 + numVertices (history ops) * (numVertices (history ops) * numVertices (history ops) + 1) =
    numVertices (history ops) ^ 3 + numVertices (history ops) by ring] at h2 h3
  exact ⟨h1, h2, fun D hD => h3 D hD⟩

end

example : (Rosemary.Paths.floydWarshallC (Rosemary.Graph.history [.addEdges [(1, 2, (5 : ℤ)), (2, 3, 1), (1, 3, 2)]])).2 = 30 := by
  decide +kernel

example : (Rosemary.Paths.floydWarshallC (Rosemary.Graph.history [.addEdges [(1, 2, (5 : ℤ)), (2, 3, -1), (1, 3, 2)]])).2 = 21 := by
  decide +kernel

end Rosemary.Props
