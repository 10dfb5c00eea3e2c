import Mathlib.Data.List.Basic

/-!
# Python's `sorted`

`sorted` and `list.sort` return the stable sorted permutation of a list; they are modelled by
insertion sort with the comparison passed explicitly.
-/

namespace Rosemary

/-- Insert before the first element that is not smaller. -/
def insertBy {α : Type} (a : α) (le : α → α → Bool) : List α → List α
  | [] => [a]
  | b :: l => if le a b then a :: b :: l else b :: insertBy a le l

/-- `sorted(l)` for the order `le`. -/
def pySort {α : Type} (l : List α) (le : α → α → Bool) : List α :=
  l.foldr (fun a l => insertBy a le l) []

theorem insertBy_perm {α : Type} (a : α) (le : α → α → Bool) (l : List α) :
    (insertBy a le l).Perm (a :: l) := by
  induction l with
  | nil => exact List.Perm.refl _
  | cons b l ih =>
    simp only [insertBy]
    split
    · exact List.Perm.refl _
    · exact (ih.cons b).trans (List.Perm.swap a b l)

theorem pySort_perm {α : Type} (l : List α) (le : α → α → Bool) : (pySort l le).Perm l := by
  induction l with
  | nil => exact List.Perm.refl _
  | cons a l ih => exact (insertBy_perm a le _).trans (ih.cons a)

theorem mem_pySort {α : Type} {l : List α} {le : α → α → Bool} {x : α} : x ∈ pySort l le ↔ x ∈ l :=
  (pySort_perm l le).mem_iff

theorem pairwise_pySort {α : Type} {le : α → α → Bool} (htrans : ∀ a b c, le a b → le b c → le a c)
    (htotal : ∀ a b, (le a b || le b a) = true) (l : List α) :
    (pySort l le).Pairwise (fun a b => le a b = true) := by
  induction l with
  | nil => exact List.Pairwise.nil
  | cons a l ih =>
    show (insertBy a le (pySort l le)).Pairwise _
    generalize pySort l le = m at ih
    induction m with
    | nil => simp [insertBy]
    | cons b m ihm =>
      obtain ⟨h1, h2⟩ := List.pairwise_cons.1 ih
      simp only [insertBy]
      split
      · rename_i hab
        refine List.pairwise_cons.2 ⟨?_, ih⟩
        intro c hc
        rcases List.mem_cons.1 hc with rfl | hc
        · exact hab
        · exact htrans a b c hab (h1 c hc)
      · rename_i hab
        refine List.pairwise_cons.2 ⟨?_, ihm h2⟩
        intro c hc
        rcases List.mem_cons.1 ((insertBy_perm a le m).mem_iff.1 hc) with rfl | hc
        · have := htotal c b
          simp only [Bool.not_eq_true] at hab
          rwa [hab, Bool.false_or] at this
        · exact h1 c hc

/-- Sorting a list without repetitions gives a strictly increasing list. -/
theorem pySort_nat_lt (l : List Nat) (h : l.Nodup) : (pySort l (· ≤ ·)).Pairwise (· < ·) := by
  have h1 := pairwise_pySort (le := fun a b : Nat => decide (a ≤ b))
    (by intro a b c; simp; omega) (by intro a b; simp; omega) l
  have h2 := (pySort_perm l (fun a b : Nat => decide (a ≤ b))).nodup_iff.2 h
  refine (h1.and h2).imp ?_
  intro a b ⟨h3, h4⟩
  simp only [decide_eq_true_eq] at h3
  omega

theorem pySort_int_lt (l : List Int) (h : l.Nodup) : (pySort l (· ≤ ·)).Pairwise (· < ·) := by
  have h1 := pairwise_pySort (le := fun a b : Int => decide (a ≤ b))
    (by intro a b c; simp; omega) (by intro a b; simp; omega) l
  have h2 := (pySort_perm l (fun a b : Int => decide (a ≤ b))).nodup_iff.2 h
  refine (h1.and h2).imp ?_
  intro a b ⟨h3, h4⟩
  simp only [decide_eq_true_eq] at h3
  omega

end Rosemary
