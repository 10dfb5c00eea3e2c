import Mathlib.Data.List.Lex
import Mathlib.Data.List.Perm.Subperm
import Mathlib.Data.List.Sort
import Mathlib.Data.List.Perm.Basic
import Mathlib.Data.List.Permutation
import Mathlib.Data.Set.Finite.Lemmas
import Mathlib.Data.Set.Finite.List

/-!
# Lexicographic order and sub-multisets
-/

namespace Rosemary.Lex

variable {α : Type} [LinearOrder α]

theorem nil_le (l : List α) : [] ≤ l := by
  cases l with
  | nil => exact le_rfl
  | cons a l => exact le_of_lt List.Lex.nil

theorem not_lt_nil (l : List α) : ¬ l < [] := by
  intro h; cases h

theorem cons_lt_cons {a b : α} {l m : List α} : a :: l < b :: m ↔ a < b ∨ (a = b ∧ l < m) := by
  constructor
  · intro h
    cases h with
    | rel h => exact Or.inl h
    | cons h => exact Or.inr ⟨rfl, h⟩
  · rintro (h | ⟨rfl, h⟩)
    · exact List.Lex.rel h
    · exact List.Lex.cons h

theorem cons_le_cons {a b : α} {l m : List α} : a :: l ≤ b :: m ↔ a < b ∨ (a = b ∧ l ≤ m) := by
  rw [← not_lt, cons_lt_cons, not_or, not_and, not_lt, not_lt]
  constructor
  · rintro ⟨h1, h2⟩
    rcases lt_or_eq_of_le h1 with h | h
    · exact Or.inl h
    · exact Or.inr ⟨h, h2 h.symm⟩
  · rintro (h | ⟨rfl, h⟩)
    · exact ⟨h.le, fun e => absurd (e ▸ h) (lt_irrefl _)⟩
    · exact ⟨le_rfl, fun _ => h⟩

theorem append_lt_append_left (p : List α) {l m : List α} : p ++ l < p ++ m ↔ l < m := by
  induction p with
  | nil => rfl
  | cons a p ih => rw [List.cons_append, List.cons_append, cons_lt_cons, ih]; simp

theorem append_le_append_left (p : List α) {l m : List α} : p ++ l ≤ p ++ m ↔ l ≤ m := by
  rw [← not_lt, append_lt_append_left, not_lt]

theorem le_append (l m : List α) : l ≤ l ++ m := by
  conv_lhs => rw [← List.append_nil l]
  rw [append_le_append_left]
  exact nil_le m

/-- Either a list below `t` is a prefix of `t`, or everything extending it is below `t`. -/
theorem prefix_or_ext {x t : List α} (h : x ≤ t) : (∃ z, t = x ++ z) ∨ ∀ y, x ++ y < t := by
  induction x generalizing t with
  | nil => exact Or.inl ⟨t, rfl⟩
  | cons a x ih =>
    cases t with
    | nil => exact absurd (List.Lex.nil : ([] : List α) < a :: x) (not_lt.2 h)
    | cons b t =>
      rcases cons_le_cons.1 h with h | ⟨rfl, h'⟩
      · exact Or.inr (fun y => cons_lt_cons.2 (Or.inl h))
      · rcases ih h' with ⟨z, rfl⟩ | h
        · exact Or.inl ⟨z, rfl⟩
        · exact Or.inr (fun y => cons_lt_cons.2 (Or.inr ⟨rfl, h y⟩))

/-- A nonincreasing list is the largest among the lists made of its elements. -/
theorem le_of_subperm_desc {s t : List α} (hs : s.Pairwise (· ≥ ·)) (h : t.Subperm s) : t ≤ s := by
  induction s generalizing t with
  | nil => rw [List.subperm_nil.1 h]
  | cons a s ih =>
    cases t with
    | nil => exact nil_le _
    | cons c t =>
      have hc : c ∈ a :: s := h.subset List.mem_cons_self
      rcases eq_or_ne c a with rfl | hne
      · exact cons_le_cons.2 (Or.inr ⟨rfl, ih (List.pairwise_cons.1 hs).2 (List.subperm_cons c |>.1 h)⟩)
      · have := (List.pairwise_cons.1 hs).1 c (by simpa [hne] using hc)
        exact cons_le_cons.2 (Or.inl (lt_of_le_of_ne this hne))

/-- A nondecreasing list is the smallest among the lists made of its elements. -/
theorem take_le_of_subperm_asc {s t : List α} (hs : s.Pairwise (· ≤ ·)) (h : t.Subperm s) :
    s.take t.length ≤ t := by
  induction t generalizing s with
  | nil => exact nil_le _
  | cons c t ih =>
    cases s with
    | nil => exact absurd (List.subperm_nil.1 h) (by simp)
    | cons a s =>
      have hc : c ∈ a :: s := h.subset List.mem_cons_self
      rw [List.length_cons, List.take_succ_cons]
      rcases eq_or_ne a c with rfl | hne
      · exact cons_le_cons.2 (Or.inr ⟨rfl, ih (List.pairwise_cons.1 hs).2 (List.subperm_cons a |>.1 h)⟩)
      · have := (List.pairwise_cons.1 hs).1 c (by simpa [hne.symm] using hc)
        exact cons_le_cons.2 (Or.inl (lt_of_le_of_ne this hne))

theorem le_of_perm_asc {s t : List α} (hs : s.Pairwise (· ≤ ·)) (h : t.Perm s) : s ≤ t := by
  have := take_le_of_subperm_asc hs h.subperm
  rwa [h.length_eq, List.take_length] at this

/-- What comes after `p ++ a :: suf` when `suf` is nonincreasing. -/
theorem succ_le (p : List α) {a b : α} {suf t : List α} (hsuf : suf.Pairwise (· ≥ ·))
    (hb : ∀ c ∈ suf, a < c → b ≤ c) (ht : t.Subperm (p ++ a :: suf)) (hlt : p ++ a :: suf < t) :
    p ++ [b] ≤ t := by
  induction p generalizing t with
  | nil =>
    cases t with
    | nil => exact absurd hlt (not_lt_nil _)
    | cons c t =>
      rw [List.nil_append] at ht hlt ⊢
      have hc : c ∈ a :: suf := ht.subset List.mem_cons_self
      rcases cons_lt_cons.1 hlt with h | ⟨rfl, h⟩
      · have : c ∈ suf := by simpa [h.ne'] using hc
        rcases lt_or_eq_of_le (hb c this h) with h | rfl
        · exact cons_le_cons.2 (Or.inl h)
        · exact cons_le_cons.2 (Or.inr ⟨rfl, nil_le _⟩)
      · exact absurd (le_of_subperm_desc hsuf (List.subperm_cons a |>.1 ht)) (not_le.2 h)
  | cons x p ih =>
    cases t with
    | nil => exact absurd hlt (not_lt_nil _)
    | cons c t =>
      rw [List.cons_append] at ht hlt ⊢
      rcases cons_lt_cons.1 hlt with h | ⟨rfl, h⟩
      · exact cons_le_cons.2 (Or.inl h)
      · exact cons_le_cons.2 (Or.inr ⟨rfl, ih (List.subperm_cons x |>.1 ht) h⟩)

/-- What comes after `w ++ [x]` among lists of the same length, when the remaining elements are `rest`. -/
theorem succ_last_le (w : List α) {x b : α} {rest t : List α} (hb : ∀ c ∈ rest, x < c → b ≤ c)
    (ht : t.Subperm (w ++ x :: rest)) (hlen : t.length = w.length + 1) (hlt : w ++ [x] < t) :
    (w ++ [b]) ≤ t := by
  induction w generalizing t with
  | nil =>
    match t, hlen with
    | [c], _ =>
      rw [List.nil_append] at ht hlt ⊢
      have hc : c ∈ x :: rest := ht.subset List.mem_cons_self
      rcases cons_lt_cons.1 hlt with h | ⟨rfl, h⟩
      · have : c ∈ rest := by simpa [h.ne'] using hc
        rcases lt_or_eq_of_le (hb c this h) with h | rfl
        · exact cons_le_cons.2 (Or.inl h)
        · exact le_rfl
      · exact absurd h (lt_irrefl _)
  | cons y w ih =>
    cases t with
    | nil => simp at hlen
    | cons c t =>
      rw [List.cons_append] at ht hlt ⊢
      rcases cons_lt_cons.1 hlt with h | ⟨rfl, h⟩
      · exact cons_le_cons.2 (Or.inl h)
      · exact cons_le_cons.2 (Or.inr ⟨rfl, ih (List.subperm_cons y |>.1 ht) (by simpa using hlen) h⟩)

/-- The lists made of elements of a given list are finitely many. -/
theorem finite_subperm (l : List α) : {t : List α | t.Subperm l}.Finite := by
  apply Set.Finite.subset (List.finite_toSet (l.sublists.flatMap List.permutations))
  rintro t ⟨m, hm, hs⟩
  simp only [Set.mem_setOf_eq, List.mem_flatMap, List.mem_sublists, List.mem_permutations]
  exact ⟨m, hs, hm.symm⟩

theorem finite_perm (l : List α) : {t : List α | t.Perm l}.Finite :=
  (finite_subperm l).subset (fun _ h => h.subperm)

end Rosemary.Lex
