import Verif.Model.Tsp
import Verif.Spec.Tour
import Mathlib.Tactic.Abel

/-!
# Lengths of tours
-/

namespace Rosemary.Tsp

open Rosemary.Spec

section Monoid

variable {A : Type} [AddCommMonoid A]

/-- The length of the way from `a` along `l`. -/
def chain (D : ℕ → ℕ → A) : ℕ → List ℕ → A
  | _, [] => 0
  | a, b :: l => D a b + chain D b l

/-- The length of the way from `a` along `l` to `z`. -/
def way (D : ℕ → ℕ → A) (a : ℕ) (l : List ℕ) (z : ℕ) : A := chain D a (l ++ [z])

theorem way_nil (D : ℕ → ℕ → A) (a z : ℕ) : way D a [] z = D a z := by simp [way, chain]

theorem way_cons (D : ℕ → ℕ → A) (a b : ℕ) (l : List ℕ) (z : ℕ) : way D a (b :: l) z = D a b + way D b l z := rfl

theorem chain_append (D : ℕ → ℕ → A) (a : ℕ) (l r : List ℕ) :
    chain D a (l ++ r) = chain D a l + chain D (l.getLastD a) r := by
  induction l generalizing a with
  | nil => simp [chain]
  | cons b l ih => rw [List.cons_append, chain, chain, ih, List.getLastD_cons, add_assoc]

theorem way_append (D : ℕ → ℕ → A) (a : ℕ) (l : List ℕ) (b : ℕ) (r : List ℕ) (z : ℕ) :
    way D a (l ++ b :: r) z = way D a l b + way D b r z := by
  induction l generalizing a with
  | nil => rw [List.nil_append, way_cons, way_nil]
  | cons c l ih => rw [List.cons_append, way_cons, way_cons, ih, add_assoc]

theorem way_eq_chain (D : ℕ → ℕ → A) (a : ℕ) (l : List ℕ) (z : ℕ) :
    way D a l z = chain D a l + D (l.getLastD a) z := by
  rw [way, chain_append]; simp [chain]

theorem zipWith_way (D : ℕ → ℕ → A) (a : ℕ) (l : List ℕ) (z : ℕ) :
    ((a :: l).zipWith D (l ++ [z])).sum = way D a l z := by
  induction l generalizing a with
  | nil => simp [way_nil]
  | cons b l ih => rw [List.cons_append, List.zipWith_cons_cons, List.sum_cons, ih, way_cons]

theorem tourLength_cons (D : ℕ → ℕ → A) (a : ℕ) (l : List ℕ) : tourLength D (a :: l) = way D a l a := by
  rw [tourLength, ← zipWith_way]
  rw [List.rotate_cons_succ, List.rotate_zero]

theorem tourLength_rotate (D : ℕ → ℕ → A) (l : List ℕ) (k : ℕ) : tourLength D (l.rotate k) = tourLength D l := by
  rw [tourLength, tourLength, List.rotate_rotate, Nat.add_comm, ← List.rotate_rotate,
    ← List.zipWith_rotate_distrib _ _ _ _ (List.length_rotate _ _).symm]
  exact (List.rotate_perm _ _).sum_eq

theorem fold_chain {B : Type} [AddMonoid B] (f : ℕ → B) (m : ℕ) (c : B) :
    (List.range m).foldlM (m := Except PyErr) (fun total i => .ok (total + f i)) c =
      .ok (c + ((List.range m).map f).sum) := by
  induction m with
  | zero => simp [pure, Except.pure]
  | succ m ih =>
    rw [List.range_succ, List.foldlM_append, ih]
    simp [bind, Except.bind, add_assoc, pure, Except.pure]

theorem sum_chain (D : ℕ → ℕ → A) (a : ℕ) (l : List ℕ) :
    ((List.range l.length).map (fun i => D ((a :: l).getD i 0) ((a :: l).getD (i + 1) 0))).sum = chain D a l := by
  induction l generalizing a with
  | nil => simp [chain]
  | cons b l ih =>
    rw [List.length_cons, List.range_succ_eq_map, List.map_cons, List.map_map, List.sum_cons, chain, ← ih b]
    rfl

/-- `cost` is the length of the tour. -/
theorem cost_eq (D : ℕ → ℕ → A) (path : List ℕ) (n : ℕ) (hn : path.length = n) (h0 : path ≠ []) :
    cost D path n = .ok (tourLength D path) := by
  cases path with
  | nil => exact absurd rfl h0
  | cons a l =>
    rw [cost]
    rw [List.getLast?_cons, List.head?_cons]
    dsimp only
    rw [tourLength_cons, way_eq_chain, ← sum_chain]
    have hm : n - 1 = l.length := by rw [← hn]; rfl
    rw [hm]
    rw [add_comm]
    rw [← fold_chain]
    have : ∀ (m : ℕ) (hm : m ≤ l.length) (c : A), (List.range m).foldlM (m := Except PyErr) (fun total i =>
        match (a :: l)[i]?, (a :: l)[i + 1]? with
        | some a, some b => .ok (total + D a b)
        | _, _ => .error .indexError) c =
        (List.range m).foldlM (fun total i => .ok (total + D ((a :: l).getD i 0) ((a :: l).getD (i + 1) 0))) c := by
      intro m hm c
      induction m with
      | zero => rfl
      | succ m ih =>
        rw [List.range_succ, List.foldlM_append, List.foldlM_append, ih (by omega)]
        congr 1
        funext total
        rw [List.foldlM_cons, List.foldlM_cons]
        have h1 : (a :: l)[m]? = some ((a :: l).getD m 0) := by
          rw [List.getD_eq_getElem?_getD, List.getElem?_eq_getElem (by simp; omega)]; rfl
        have h2 : (a :: l)[m + 1]? = some ((a :: l).getD (m + 1) 0) := by
          rw [List.getD_eq_getElem?_getD, List.getElem?_eq_getElem (by simp; omega)]; rfl
        rw [h1, h2]; rfl
    rw [List.getLastD_eq_getLast?]
    exact this _ le_rfl _

end Monoid

/-! ## Tours -/

theorem tour_length {n : ℕ} {l : List ℕ} (h : IsTour n l) : l.length = n := by
  have : l.Perm (List.range n) := (List.perm_ext_iff_of_nodup h.1 List.nodup_range).2 (by
    intro i; rw [h.2, List.mem_range])
  rw [this.length_eq, List.length_range]

theorem isTour_iff {n : ℕ} {l : List ℕ} : IsTour n l ↔ l.Perm (List.range n) := by
  constructor
  · intro h
    exact (List.perm_ext_iff_of_nodup h.1 List.nodup_range).2 (by intro i; rw [h.2, List.mem_range])
  · intro h
    exact ⟨h.nodup_iff.2 List.nodup_range, fun i => by rw [h.mem_iff, List.mem_range]⟩

theorem tour_rotate {n : ℕ} {l : List ℕ} (h : IsTour n l) (k : ℕ) : IsTour n (l.rotate k) := by
  rw [isTour_iff] at *
  exact (List.rotate_perm l k).trans h

/-- Every tour of at least one city can be started at 0. -/
theorem tour_start {A : Type} [AddCommMonoid A] (D : ℕ → ℕ → A) {n : ℕ} (hn : 0 < n) {l : List ℕ} (h : IsTour n l) :
    ∃ l', IsTour n l' ∧ l'.head? = some 0 ∧ tourLength D l' = tourLength D l := by
  obtain ⟨s, t, rfl⟩ := List.append_of_mem ((h.2 0).2 hn)
  refine ⟨(s ++ 0 :: t).rotate s.length, tour_rotate h _, ?_, tourLength_rotate _ _ _⟩
  rw [List.rotate_append_length_eq]; rfl

end Rosemary.Tsp
