import Verif.Lemmas.MatrixTree
import Verif.Lemmas.SpanningTree
import Mathlib.Data.Set.Card

/-!
# Spanning trees as functions to the parent
-/

namespace Rosemary.MatrixTree

open Rosemary.Spec

variable {U V W : Type} [Fintype U] [DecidableEq U] [LinearOrder V]

/-- The edge between two vertices. -/
def pair (x y : V) : V × V := (min x y, max x y)

theorem pair_comm (x y : V) : pair x y = pair y x := by rw [pair, pair, min_comm, max_comm]

theorem pair_eq {x y u v : V} (h : pair x y = pair u v) : (x = u ∧ y = v) ∨ (x = v ∧ y = u) := by
  rw [pair, pair, Prod.mk.injEq] at h
  rcases le_total x y with h1 | h1 <;> rcases le_total u v with h2 | h2 <;> simp only [min_eq_left, min_eq_right,
    max_eq_left, max_eq_right, h1, h2] at h <;> tauto

theorem pair_of_lt {x y : V} (h : x < y) : pair x y = (x, y) := by rw [pair, min_eq_left h.le, max_eq_right h.le]

/-- The edges to the parents. -/
def parentEdges (e : U → V) (r : U) (f : ↥(Finset.univ.erase r) → U) : Finset (V × V) :=
  Finset.univ.image (fun i : ↥(Finset.univ.erase r) => pair (e i) (e (f i)))

variable {A : V → V → Option W} {C : Finset V} {e : U → V} {a : U → U → Prop} {r : U}

theorem notMem_erase_iff {v : U} : v ∉ Finset.univ.erase r ↔ v = r := by simp

/-- There is no cycle of two steps. -/
theorem no_two_cycle {f : ↥(Finset.univ.erase r) → U} (hl : Leaves _ f) (i j : ↥(Finset.univ.erase r))
    (h1 : f i = j) (h2 : f j = i) : False := by
  have : ∀ k, ((step _ f)^[k] (i : U) = i ∨ (step _ f)^[k] (i : U) = j) := by
    intro k
    induction k with
    | zero => exact Or.inl rfl
    | succ k ih =>
      rw [Function.iterate_succ_apply']
      rcases ih with ih | ih
      · right; rw [ih, step, dif_pos i.2]; exact h1
      · left; rw [ih, step, dif_pos j.2]; exact h2
  obtain ⟨k, hk⟩ := hl i
  rcases this k with h | h
  · rw [h] at hk; exact hk i.2
  · rw [h] at hk; exact hk j.2

theorem tree_of_parents (he : Function.Injective e) (hC : ∀ x, x ∈ C ↔ ∃ i, e i = x)
    (ha : ∀ i j, a i j ↔ ∃ w, A (e i) (e j) = some w) (hs : ∀ i j, a i j → a j i)
    {f : ↥(Finset.univ.erase r) → U} (hf : ∀ i : ↥(Finset.univ.erase r), a i (f i)) (hl : Leaves _ f) :
    SpanningTree A C (parentEdges e r f) := by
  have hcard : C.card = Fintype.card U := by
    have : C = Finset.univ.image e := by ext x; rw [hC]; simp
    rw [this, Finset.card_image_of_injective _ he, Finset.card_univ]
  refine ⟨?_, ?_, ?_⟩
  · intro u v huv
    obtain ⟨i, -, hi⟩ := Finset.mem_image.1 huv
    have hne : e i ≠ e (f i) := by
      intro h
      exact no_two_cycle hl i i (he h).symm (he h).symm
    rcases lt_or_gt_of_ne hne with h | h
    · rw [pair_of_lt h, Prod.mk.injEq] at hi
      rw [← hi.1, ← hi.2]
      exact ⟨h, (hC _).2 ⟨_, rfl⟩, (hC _).2 ⟨_, rfl⟩, (ha _ _).1 (hf i)⟩
    · rw [pair_comm, pair_of_lt h, Prod.mk.injEq] at hi
      rw [← hi.1, ← hi.2]
      exact ⟨h, (hC _).2 ⟨_, rfl⟩, (hC _).2 ⟨_, rfl⟩, (ha _ _).1 (hs _ _ (hf i))⟩
  · have hedge : ∀ i, Joined (parentEdges e r f) (e i) (e (step _ f i)) := by
      intro i
      rw [step]
      by_cases h : i ∈ Finset.univ.erase r
      · rw [dif_pos h]
        have hm : pair (e i) (e (f ⟨i, h⟩)) ∈ parentEdges e r f := Finset.mem_image.2 ⟨⟨i, h⟩, Finset.mem_univ _, rfl⟩
        rw [pair] at hm
        have hj := Joined.of_mem hm
        rcases le_total (e i) (e (f ⟨i, h⟩)) with h1 | h1
        · rwa [min_eq_left h1, max_eq_right h1] at hj
        · rw [min_eq_right h1, max_eq_left h1] at hj
          exact hj.symm
      · rw [dif_neg h]; exact Joined.refl _ _
    have hit : ∀ k i, Joined (parentEdges e r f) (e i) (e ((step _ f)^[k] i)) := by
      intro k
      induction k with
      | zero => intro i; exact Joined.refl _ _
      | succ k ih =>
        intro i
        rw [Function.iterate_succ_apply]
        exact (hedge i).trans (ih _)
    have hroot : ∀ i, Joined (parentEdges e r f) (e i) (e r) := by
      intro i
      obtain ⟨k, hk⟩ := hl i
      rw [notMem_erase_iff] at hk
      have := hit k i
      rwa [hk] at this
    intro u hu v hv
    obtain ⟨i, rfl⟩ := (hC u).1 hu
    obtain ⟨j, rfl⟩ := (hC v).1 hv
    exact (hroot i).trans (hroot j).symm
  · rw [hcard, parentEdges, Finset.card_image_of_injective]
    · rw [Finset.card_univ, Fintype.card_coe, Finset.card_erase_of_mem (Finset.mem_univ _), Finset.card_univ]
      have : 0 < Fintype.card U := Fintype.card_pos_iff.2 ⟨r⟩
      omega
    · intro i j hij
      rcases pair_eq hij with ⟨h1, -⟩ | ⟨h1, h2⟩
      · exact Subtype.ext (he h1)
      · exact absurd (no_two_cycle hl i j (he h2) (he h1).symm) id

theorem parents_injective (he : Function.Injective e) {f g : ↥(Finset.univ.erase r) → U} (hf : Leaves _ f)
    (hg : Leaves _ g) (h : parentEdges e r f = parentEdges e r g) : f = g := by
  have key : ∀ k (i : ↥(Finset.univ.erase r)), (step _ f)^[k] (i : U) ∉ Finset.univ.erase r → f i = g i := by
    intro k
    induction k with
    | zero => intro i hi; exact absurd i.2 hi
    | succ k ih =>
      intro i hi
      rw [Function.iterate_succ_apply, step, dif_pos i.2] at hi
      have hm : pair (e i) (e (f i)) ∈ parentEdges e r g := by
        rw [← h]; exact Finset.mem_image.2 ⟨i, Finset.mem_univ _, rfl⟩
      obtain ⟨j, -, hj⟩ := Finset.mem_image.1 hm
      rcases pair_eq hj with ⟨h1, h2⟩ | ⟨h1, h2⟩
      · have := Subtype.ext (he h1)
        subst this
        exact (he h2).symm
      · have hfi : f i ∈ Finset.univ.erase r := by rw [← he h1]; exact j.2
        have hj' : j = ⟨f i, hfi⟩ := Subtype.ext (he h1)
        subst hj'
        have h3 := ih ⟨f i, hfi⟩ hi
        exact absurd (no_two_cycle hf i ⟨f i, hfi⟩ rfl (by rw [h3]; exact he h2)) id
  funext i
  obtain ⟨k, hk⟩ := hf i
  exact key k i hk

theorem parents_of_tree (he : Function.Injective e) (hC : ∀ x, x ∈ C ↔ ∃ i, e i = x)
    (ha : ∀ i j, a i j ↔ ∃ w, A (e i) (e j) = some w) (hs : ∀ i j, a i j → a j i)
    {T : Finset (V × V)} (hT : SpanningTree A C T) : ∃ f : ↥(Finset.univ.erase r) → U,
      (∀ i : ↥(Finset.univ.erase r), a i (f i)) ∧ Leaves _ f ∧ parentEdges e r f = T := by
  classical
  let E' : U → U → Prop := fun i j => (e i, e j) ∈ T ∨ (e j, e i) ∈ T
  have hE : ∀ i j, E' i j → a i j := by
    rintro i j (h | h)
    · exact (ha i j).2 (hT.edge _ _ h).2.2.2
    · exact hs _ _ ((ha j i).2 (hT.edge _ _ h).2.2.2)
  have hreach : ∀ j, Reach E' r j := by
    intro j
    have hc := Joined.const (T := T) (fun x => ∃ j, e j = x ∧ Reach E' r j) (by
      intro x y hxy
      obtain ⟨-, hx, hy, -⟩ := hT.edge _ _ hxy
      obtain ⟨i, rfl⟩ := (hC x).1 hx
      obtain ⟨k, rfl⟩ := (hC y).1 hy
      apply propext
      constructor
      · rintro ⟨l, hl, hr⟩
        rw [he hl] at hr
        exact ⟨k, rfl, hr.step (Or.inl hxy)⟩
      · rintro ⟨l, hl, hr⟩
        rw [he hl] at hr
        exact ⟨i, rfl, hr.step (Or.inr hxy)⟩) (hT.joined _ ((hC (e r)).2 ⟨r, rfl⟩) _ ((hC (e j)).2 ⟨j, rfl⟩))
    have h1 : ∃ l, e l = e j ∧ Reach E' r l := by
      rw [← hc]; exact ⟨r, rfl, Reach.refl _ _⟩
    obtain ⟨l, hl, hr⟩ := h1
    rwa [he hl] at hr
  have hd : ∀ v, ∃ n, IsDist E' r v n := fun v => (hreach v).isDist
  choose d hd using hd
  have hpred : ∀ i : ↥(Finset.univ.erase r), ∃ w, E' i w ∧ d w < d i := by
    intro i
    have hi := hd i
    cases hn : d i with
    | zero =>
      rw [hn, isDist_zero_iff] at hi
      have := i.2
      rw [hi] at this
      simp at this
    | succ n =>
      rw [hn] at hi
      obtain ⟨w, hw, hw'⟩ := hi.pred
      exact ⟨w, hw'.symm, by rw [(hd w).unique hw]; omega⟩
  choose f hf using hpred
  have hleaves : Leaves _ f := by
    have : ∀ n v, d v ≤ n → ∃ k, (step _ f)^[k] v ∉ Finset.univ.erase r := by
      intro n
      induction n with
      | zero =>
        intro v hv
        refine ⟨0, fun h => ?_⟩
        have := (hf ⟨v, h⟩).2
        dsimp only at this
        omega
      | succ n ih =>
        intro v hv
        by_cases h : v ∈ Finset.univ.erase r
        · obtain ⟨k, hk⟩ := ih (f ⟨v, h⟩) (by have := (hf ⟨v, h⟩).2; dsimp only at this; omega)
          refine ⟨k + 1, ?_⟩
          rw [Function.iterate_succ_apply, step, dif_pos h]
          exact hk
        · exact ⟨0, h⟩
    intro v
    exact this _ v le_rfl
  have hfa : ∀ i : ↥(Finset.univ.erase r), a i (f i) := fun i => hE _ _ (hf i).1
  refine ⟨f, hfa, hleaves, ?_⟩
  have htree := tree_of_parents he hC ha hs hfa hleaves
  apply Finset.eq_of_subset_of_card_le
  · intro p hp
    obtain ⟨i, -, rfl⟩ := Finset.mem_image.1 hp
    rcases (hf i).1 with h | h
    · rw [pair_of_lt (hT.edge _ _ h).1]; exact h
    · rw [pair_comm, pair_of_lt (hT.edge _ _ h).1]; exact h
  · have h1 := htree.card
    have h2 := hT.card
    omega

/-- The matrix tree theorem. -/
theorem matrix_tree [DecidableRel a] (he : Function.Injective e) (hC : ∀ x, x ∈ C ↔ ∃ i, e i = x)
    (ha : ∀ i j, a i j ↔ ∃ w, A (e i) (e j) = some w) (hs : ∀ i j, a i j → a j i) (r : U) :
    ((laplacian a).submatrix (Subtype.val : ↥(Finset.univ.erase r) → U) Subtype.val).det =
      ({T | SpanningTree A C T} : Set (Finset (V × V))).ncard := by
  classical
  rw [det_principal]
  norm_cast
  have : ({T | SpanningTree A C T} : Set (Finset (V × V))) =
      ((Finset.univ.filter (fun f : ↥(Finset.univ.erase r) → U =>
        (∀ i : ↥(Finset.univ.erase r), a i (f i)) ∧ Leaves _ f)).image (parentEdges e r) : Set (Finset (V × V))) := by
    ext T
    rw [Set.mem_setOf_eq, Finset.mem_coe, Finset.mem_image]
    constructor
    · intro hT
      obtain ⟨f, h1, h2, h3⟩ := parents_of_tree he hC ha hs (r := r) hT
      exact ⟨f, Finset.mem_filter.2 ⟨Finset.mem_univ _, h1, h2⟩, h3⟩
    · rintro ⟨f, hf, rfl⟩
      obtain ⟨-, h1, h2⟩ := Finset.mem_filter.1 hf
      exact tree_of_parents he hC ha hs h1 h2
  rw [this, Set.ncard_coe_finset, Finset.card_image_of_injOn]
  intro f hf g hg h
  rw [Finset.mem_coe, Finset.mem_filter] at hf hg
  exact parents_injective he hf.2.2 hg.2.2 h

end Rosemary.MatrixTree
