import Verif.Model.CheritonCosts
import Verif.Lemmas.CheritonTarjan
import Mathlib.Tactic.Ring

/-!
# Lemmas on the cost of `cheriton_tarjan`
-/

namespace Rosemary.SpanningTrees

open Graph Paths Spec

variable {V W : Type} [LinearOrder V] [AddCommMonoid W] [LinearOrder W] [IsOrderedCancelAddMonoid W]

omit [AddCommMonoid W] [IsOrderedCancelAddMonoid W] in
theorem length_keys_set {β : Type} {d : Dict V β} {u : V} (h : u ∈ Dict.keys d) (b : β) :
    (Dict.keys (Dict.set d u b)).length = (Dict.keys d).length := by
  rw [Dict.keys_set, if_pos h]

theorem ctUnite_keys {Tu Tv : V} {h : EdgeHeap V W} {PQ PQ' : Dict V (EdgeHeap V W)} {X X' : UnionFind.UF V} (hT : Tu ∈ Dict.keys PQ)
    (hwf : Dict.WF PQ) (hu : ctUnite Tu Tv h PQ X = some (.ok (PQ', X'))) :
    Dict.WF PQ' ∧ (Dict.keys PQ').length + 1 = (Dict.keys PQ).length := by
  rw [ctUnite] at hu
  split at hu
  · simp at hu
  · split at hu
    · simp at hu
    · simp at hu
    · dsimp only at hu
      split at hu
      · rename_i ha hb h1 h2
        simp only [Option.some.injEq, Except.ok.injEq, Prod.mk.injEq] at hu
        obtain ⟨rfl, -⟩ := hu
        refine ⟨((hwf.set _ _).set _ _).erase _, ?_⟩
        have ka := Dict.get?_isSome.1 ⟨_, h1⟩
        have kb := Dict.get?_isSome.1 ⟨_, h2⟩
        rw [Dict.keys_erase, List.length_erase_of_mem (Dict.mem_keys_set.2 (Or.inr kb)), length_keys_set ka, length_keys_set hT]
        have := List.length_pos_of_mem hT
        omega
      · simp at hu

theorem ctLoopC_spec (ch : ℕ → List V → V) (n : ℕ) {t : List (V × V)} : ∀ (m : ℕ) (PQ : Dict V (EdgeHeap V W)) (X : UnionFind.UF V)
    (tree : List (V × V)) (num k : ℕ), n = num + 1 + m → Dict.WF PQ → (Dict.keys PQ).length = m + 1 →
    ctLoop ch n PQ X tree num = some (.ok t) →
    ∃ c, ctLoopC ch n PQ X tree num k = some (.ok t, k + c) ∧ 2 * c + 2 = (m + 1) * (m + 2) := by
  intro m
  induction m with
  | zero =>
    intro PQ X tree num k hn hwf hl h
    rw [ctLoop.eq_def, if_neg (by omega)] at h
    simp only [Option.some.injEq, Except.ok.injEq] at h
    exact ⟨0, by rw [ctLoopC.eq_def, if_neg (by omega), h, Nat.add_zero], rfl⟩
  | succ m ih =>
    intro PQ X tree num k hn hwf hl h
    obtain ⟨u, us, hks⟩ := List.exists_cons_of_length_eq_add_one hl
    rw [ctLoop.eq_def, if_pos (by omega), hks] at h
    dsimp only at h
    rw [ctLoopC.eq_def, if_pos (by omega), hks]
    dsimp only
    split at h
    · simp at h
    · simp at h
    · rename_i Tu X1 e1
      rw [e1]
      dsimp only
      split at h
      · simp at h
      · rename_i h1 e2
        rw [e2]
        dsimp only
        split at h
        · simp at h
        · simp at h
        · rename_i x y Tv h2 X2 e3
          rw [e3]
          dsimp only
          split at h
          · simp at h
          · simp at h
          · rename_i PQ' X3 e4
            rw [e4]
            dsimp only
            obtain ⟨k1, k2⟩ := ctUnite_keys (Dict.get?_isSome.1 ⟨_, e2⟩) hwf e4
            obtain ⟨c, c1, c2⟩ := ih PQ' X3 _ (num + 1) (k + (u :: us).length) (by omega) k1 (by omega) h
            refine ⟨(u :: us).length + c, by rw [c1, Nat.add_assoc], ?_⟩
            rw [← hks, hl, Nat.mul_add, Nat.add_assoc, c2]
            ring

omit [IsOrderedCancelAddMonoid W] in
theorem ctQueues_keys {g : Graph V W} : ∀ (us : List V) (PQ PQ' : Dict V (EdgeHeap V W)), us.Nodup → (∀ u ∈ us, u ∉ Dict.keys PQ) →
    Dict.WF PQ → ctQueues g us PQ = .ok PQ' → Dict.WF PQ' ∧ (Dict.keys PQ').length = us.length + (Dict.keys PQ).length := by
  intro us
  induction us with
  | nil =>
    intro PQ PQ' _ _ hwf h
    rw [ctQueues] at h
    injection h with h
    subst h
    exact ⟨hwf, by simp⟩
  | cons u us ih =>
    intro PQ PQ' hnd hno hwf h
    rw [ctQueues] at h
    split at h
    · simp at h
    · split at h
      · simp at h
      · rename_i hp _
        rw [List.nodup_cons] at hnd
        obtain ⟨k1, k2⟩ := ih _ PQ' hnd.2 (fun v hv hm => by
          rcases Dict.mem_keys_set.1 hm with rfl | hm
          · exact hnd.1 hv
          · exact hno v (List.mem_cons_of_mem _ hv) hm) (hwf.set u hp) h
        refine ⟨k1, ?_⟩
        rw [k2, Dict.keys_set, if_neg (hno u List.mem_cons_self), List.length_append, List.length_singleton, List.length_cons]
        omega

/-- The number of keys copied is determined by the number of vertices. -/
theorem cheritonTarjanC_spec (ch : ℕ → List V → V) {g : Graph V W} (hg : Good g) (hne : 0 < numVertices g) {r : W × List (V × V)}
    (h : cheritonTarjan ch g = some (.ok r)) :
    ∃ k, cheritonTarjanC ch g = some (.ok r, k) ∧ 2 * k + 2 = numVertices g * (numVertices g + 1) := by
  have hlen : (vertices g).length = numVertices g := by
    rw [vertices, (pySort_perm _ _).length_eq, Dict.keys, List.length_map, numVertices]
  have hnd : (vertices g).Nodup := (pySort_perm _ _).nodup_iff.2 hg.wf
  rw [cheritonTarjan] at h
  rw [cheritonTarjanC]
  split at h
  · simp at h
  · rename_i PQ e1
    rw [e1]
    dsimp only
    split at h
    · simp at h
    · simp at h
    · rename_i tree e2
      obtain ⟨k1, k2⟩ := ctQueues_keys _ [] _ hnd (by simp [Dict.keys]) List.nodup_nil e1
      obtain ⟨c, c1, c2⟩ := ctLoopC_spec ch _ (numVertices g - 1) PQ _ [] 0 0 (by omega) k1
        (by rw [k2, hlen]; simp [Dict.keys]; omega) e2
      rw [c1, Nat.zero_add]
      dsimp only
      refine ⟨c, ?_, by rw [c2, show numVertices g - 1 + 2 = numVertices g + 1 by omega, Nat.sub_add_cancel hne]⟩
      split at h
      · simp at h
      · rename_i total e3
        rw [e3]
        simp only [Option.some.injEq, Except.ok.injEq] at h
        rw [← h]

end Rosemary.SpanningTrees
