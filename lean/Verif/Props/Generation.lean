import Verif.Lemmas.Phillips
import Verif.Lemmas.Tuples
import Mathlib.Data.Finset.Sort
import Mathlib.Data.Finset.Powerset

/-!
# Combinations, tuples and permutations

The order on lists is Mathlib's lexicographic order.
-/

namespace Rosemary.Props

open Rosemary.Generation Rosemary.Gen Rosemary.Lex

/-! ## C52 -/

/-- C52: `combinations(n, t)` yields, in lexicographic order and without repetition, exactly the strictly
decreasing lists of `t` numbers in `0, ..., n - 1`. -/
theorem C52_combinations (n t : Nat) (h : t ≤ n) :
    ∃ L, combinations n t = some (L, none) ∧ L.Pairwise (· < ·) ∧
      ∀ d : List Int, d ∈ L ↔ d.length = t ∧ d.Pairwise (· > ·) ∧ ∀ x ∈ d, 0 ≤ x ∧ x < n := by
  obtain ⟨L, h1, h2, h3⟩ := run_comb (n := n) (by omega) (combGood_init (n := n) (t := t) (by omega))
  refine ⟨L, h1, h2, fun d => ?_⟩
  rw [h3]
  constructor
  · rintro ⟨h, -⟩; exact h
  · intro hd
    refine ⟨hd, dl_min t (fun i a b => ?_) hd.1 hd.2.1 (fun x hx => (hd.2.2 x hx).1)⟩
    rw [gi_combInit, if_neg (by omega), if_pos b]

/-- C52: the number of lists yielded is the binomial coefficient. -/
theorem C52_number (n t : Nat) (h : t ≤ n) :
    ∃ L, combinations n t = some (L, none) ∧ L.length = n.choose t := by
  obtain ⟨L, h1, h2, h3⟩ := C52_combinations n t h
  refine ⟨L, h1, ?_⟩
  have hnd : L.Nodup := h2.imp (fun h => h.ne)
  rw [← List.toFinset_card_of_nodup hnd]
  have hr : n.choose t = ((Finset.range n).powersetCard t).card := by simp
  rw [hr]
  refine Finset.card_bij' (fun d _ => d.toFinset.image Int.toNat)
    (fun s _ => ((s.sort (· ≥ ·)).map (fun i : Nat => (i : Int)))) ?_ ?_ ?_ ?_
  · intro d hd
    obtain ⟨d1, d2, d3⟩ := (h3 d).1 (List.mem_toFinset.1 hd)
    rw [Finset.mem_powersetCard]
    constructor
    · intro x hx
      simp only [Finset.mem_image, List.mem_toFinset] at hx
      obtain ⟨y, hy, rfl⟩ := hx
      have := d3 y hy
      rw [Finset.mem_range]; omega
    · rw [Finset.card_image_of_injOn, List.toFinset_card_of_nodup (d2.imp (fun h => h.ne')), d1]
      intro x hx y hy hxy
      simp only [Finset.mem_coe, List.mem_toFinset] at hx hy
      have := d3 x hx
      have := d3 y hy
      omega
  · intro s hs
    rw [Finset.mem_powersetCard] at hs
    rw [List.mem_toFinset, h3]
    refine ⟨by simp [hs.2], ?_, ?_⟩
    · rw [List.pairwise_map]
      refine (Finset.sortedGT_sort s).pairwise.imp ?_
      intro a b hab
      exact_mod_cast hab
    · intro x hx
      simp only [List.mem_map, Finset.mem_sort] at hx
      obtain ⟨i, hi, rfl⟩ := hx
      have := Finset.mem_range.1 (hs.1 hi)
      omega
  · intro d hd
    obtain ⟨d1, d2, d3⟩ := (h3 d).1 (List.mem_toFinset.1 hd)
    apply List.Perm.eq_of_pairwise (le := (· > ·)) (fun a b _ _ h1 h2 => absurd h1 (not_lt.2 h2.le)) ?_ d2
    · rw [List.perm_ext_iff_of_nodup]
      · intro x
        simp only [List.mem_map, Finset.mem_sort, Finset.mem_image, List.mem_toFinset]
        constructor
        · rintro ⟨i, ⟨y, hy, rfl⟩, rfl⟩
          have := d3 y hy
          rwa [Int.toNat_of_nonneg this.1]
        · intro hx
          exact ⟨x.toNat, ⟨x, hx, rfl⟩, Int.toNat_of_nonneg (d3 x hx).1⟩
      · refine List.Nodup.map Nat.cast_injective (Finset.sort_nodup _ _)
      · exact d2.imp (fun h => h.ne')
    · rw [List.pairwise_map]
      refine (Finset.sortedGT_sort _).pairwise.imp ?_
      intro a b hab
      exact_mod_cast hab
  · intro s hs
    ext x
    simp

/-- C52: with `t > n` the generator never stops. -/
theorem C52_too_many (n t : Nat) (h : n < t) : combinations n t = none :=
  run_comb_none (by omega) (by omega)

example : combinations 4 2 = some ([[1, 0], [2, 0], [2, 1], [3, 0], [3, 1], [3, 2]], none) :=
  run_of_runN 10 (by decide +kernel)

/-! ## C53 -/

/-- C53: `n_tuples` yields, in lexicographic order and without repetition, exactly the tuples with
`0 <= a_i < M_i`. -/
theorem C53_list (M : List Int) (hM : ∀ m ∈ M, 1 ≤ m) :
    ∃ L, nTuples M.length (.list M) = some (L, none) ∧ L.Pairwise (· < ·) ∧
      ∀ t, t ∈ L ↔ List.Forall₂ (fun a m => 0 ≤ a ∧ a < m) t M := by
  have hb : (Radix.list M).bounds M.length = 2 :: M := by simp [Radix.bounds]
  have hz : InRadix (List.replicate M.length 0) M := by
    rw [inRadix_iff (by simp)]
    intro i hi
    have hi : i < M.length := by simpa using hi
    have h1 : gi (List.replicate M.length 0) i = 0 := by simp [gi, List.getElem?_replicate, hi]
    have h2 : gi M i = M[i] := by simp [gi, hi]
    rw [h1, h2]
    have := hM M[i] (List.getElem_mem _)
    omega
  obtain ⟨L, h1, h2, h3⟩ := run_tuple (n := M.length) (M := 2 :: M) (A := List.replicate (M.length + 1) 0)
    (by simp) (by simp [gi]) ⟨by simp, by simp [gi], by simpa using hz⟩
  refine ⟨L, by rw [nTuples, hb]; exact h1, h2, fun t => ?_⟩
  rw [h3]
  constructor
  · rintro ⟨h, -⟩; exact h
  · intro h
    refine ⟨h, ?_⟩
    exact tail_min (n := M.length) (M := 2 :: M) (by simp) (by simp) M.length 1 (by omega)
      (fun i a b => by simp [gi, List.getElem?_replicate, show i < M.length + 1 by omega]) h

/-- C53: a number as radix means that radix in every position, no radix means 2. -/
theorem C53_int (n : Nat) (m : Int) :
    nTuples n (.int m) = nTuples (List.replicate n m).length (.list (List.replicate n m)) ∧
      nTuples n .none = nTuples n (.int 2) := by
  constructor
  · simp [nTuples, Radix.bounds]
  · simp [nTuples, Radix.bounds]

/-- C53: with a radix that is not positive the generator never stops. -/
theorem C53_bad_radix (M : List Int) (hM : ∃ m ∈ M, m ≤ 0) : nTuples M.length (.list M) = none := by
  obtain ⟨m, hm, h0⟩ := hM
  obtain ⟨i, hi, rfl⟩ := List.mem_iff_getElem.1 hm
  have hb : (Radix.list M).bounds M.length = 2 :: M := by simp [Radix.bounds]
  rw [nTuples, hb]
  refine run_tuple_none (p := i + 1) (by simp) (by simp [gi]) (by omega) (by omega) ?_
  simpa [gi, hi] using h0

example : nTuples 2 (.list [2, 3]) = some ([[0, 0], [0, 1], [0, 2], [1, 0], [1, 1], [1, 2]], none) :=
  run_of_runN 10 (by decide +kernel)

/-! ## C54 -/

section
variable {α : Type} [LinearOrder α] [Inhabited α]

/-- C54: `knuth_algorithm_l` yields, in lexicographic order and without repetition, exactly the
arrangements of the given elements. -/
theorem C54_knuth_algorithm_l (elements : List α) :
    ∃ L, knuthL elements = some (L, none) ∧ L.Pairwise (· < ·) ∧ ∀ t, t ∈ L ↔ t.Perm elements := by
  have hp : (pySort elements (· ≤ ·)).Perm elements := pySort_perm _ _
  obtain ⟨L, h1, h2, h3⟩ := run_likePerm (pySort elements (· ≤ ·)) (step := permStep) (fun _ _ => rfl)
  refine ⟨L, h1, h2, fun t => ?_⟩
  rw [h3]
  constructor
  · rintro ⟨h, -⟩; exact h.trans hp
  · intro h
    have h := h.trans hp.symm
    exact ⟨h, le_of_perm_asc (sorted_le _) h⟩

/-- C54: `knuth_algorithm_l_variations` yields the arrangements of all sub-multisets. -/
theorem C54_variations (elements : List α) :
    ∃ L, knuthLVariations elements = some (L, none) ∧ L.Pairwise (· < ·) ∧
      ∀ t, t ∈ L ↔ t.Subperm elements := by
  have hp : (pySort elements (· ≤ ·)).Perm elements := pySort_perm _ _
  by_cases h0 : elements.length = 0
  · have : elements = [] := List.length_eq_zero_iff.1 h0
    subst this
    exact ⟨[[]], by simp [knuthLVariations], by simp, fun t => by simp⟩
  · have hs : (pySort elements (· ≤ ·)).Pairwise (· ≤ ·) := sorted_le _
    obtain ⟨L, h1, h2, h3⟩ := run_varStep (l := elements) (s := (pySort elements (· ≤ ·), 0))
      ⟨hp, by rw [hp.length_eq]; dsimp only; omega, hs.drop⟩
    refine ⟨[] :: L, by rw [knuthLVariations, if_neg h0, h1], List.pairwise_cons.2 ⟨fun t ht => ?_, h2⟩,
      fun t => ?_⟩
    · have := ((h3 t).1 ht).2
      refine lt_of_lt_of_le ?_ this
      have hl : 0 < (pySort elements (· ≤ ·)).length := by rw [hp.length_eq]; omega
      dsimp only
      cases hq : pySort elements (· ≤ ·) with
      | nil => rw [hq] at hl; simp at hl
      | cons a l => exact List.Lex.nil
    · rw [List.mem_cons, h3]
      constructor
      · rintro (rfl | ⟨h, -⟩)
        · exact List.nil_subperm
        · exact h
      · intro h
        cases t with
        | nil => exact Or.inl rfl
        | cons a t =>
          refine Or.inr ⟨h, ?_⟩
          have := take_le_of_subperm_asc hs (h.trans hp.symm.subperm)
          refine le_trans ?_ this
          dsimp only
          have hl : (0 + 1) ≤ (a :: t).length := by simp
          rw [show List.take (0 + 1) (pySort elements (· ≤ ·))
            = ((pySort elements (· ≤ ·)).take (a :: t).length).take (0 + 1) by
              rw [List.take_take, Nat.min_eq_left hl]]
          conv_rhs => rw [← List.take_append_drop (0 + 1) ((pySort elements (· ≤ ·)).take (a :: t).length)]
          exact le_append _ _

/-- C54: `knuth_algorithm_l_rvariations` yields the arrangements of the sub-multisets of size `r`. -/
theorem C54_rvariations (elements : List α) (r : Nat) (h1 : 1 ≤ r) (h2 : r ≤ elements.length) :
    ∃ L, knuthLRVariations elements r = some (L, none) ∧ L.Pairwise (· < ·) ∧
      ∀ t, t ∈ L ↔ t.Subperm elements ∧ t.length = r := by
  have hp : (pySort elements (· ≤ ·)).Perm elements := pySort_perm _ _
  have hs : (pySort elements (· ≤ ·)).Pairwise (· ≤ ·) := sorted_le _
  obtain ⟨L, g1, g2, g3⟩ := run_rvarStep (l := elements) (r := r - 1) (by omega)
    (s := pySort elements (· ≤ ·)) ⟨hp, hs.drop⟩
  rw [show r - 1 + 1 = r by omega] at g1 g3
  refine ⟨L, by rw [knuthLRVariations, if_neg (by omega), g1], g2, fun t => ?_⟩
  rw [g3]
  constructor
  · rintro ⟨a, b, -⟩; exact ⟨a, b⟩
  · rintro ⟨a, b⟩
    refine ⟨a, b, ?_⟩
    have := take_le_of_subperm_asc hs (a.trans hp.symm.subperm)
    rwa [b] at this

/-- C54: for `r = 0` the empty arrangement is yielded; with more elements asked for than there are the
generator yields one list that is too short and raises `IndexError`. -/
theorem C54_rvariations_edge (elements : List α) :
    (elements ≠ [] → knuthLRVariations elements 0 = some ([[]], none)) ∧
      knuthLRVariations ([] : List α) 0 = some ([[]], some .indexError) ∧
      ∀ r, elements.length < r →
        knuthLRVariations elements r = some ([pySort elements (· ≤ ·)], some .indexError) := by
  have hp : (pySort elements (· ≤ ·)).Perm elements := pySort_perm _ _
  refine ⟨fun h => ?_, by simp [knuthLRVariations], fun r hr => ?_⟩
  · rw [knuthLRVariations, if_pos rfl, if_neg (by simpa using h)]
  · rw [knuthLRVariations, if_neg (by omega), run_raise (e := .indexError), List.take_of_length_le]
    · rw [hp.length_eq]; omega
    · rw [rvarStep]
      dsimp only
      rw [if_pos (by rw [hp.length_eq]; omega)]

/-- C54: `phillips` yields the same lists as `knuth_algorithm_l`, unless all elements are equal (or
there are none). -/
theorem C54_phillips_partial (elements : List α) (h : ∃ x ∈ elements, ∃ y ∈ elements, x ≠ y) :
    ∃ L, phillips elements = some (L, none) ∧ L.Pairwise (· < ·) ∧ ∀ t, t ∈ L ↔ t.Perm elements := by
  have hp : (pySort elements (· ≤ ·)).Perm elements := pySort_perm _ _
  have hs : (pySort elements (· ≤ ·)).Pairwise (· ≤ ·) := sorted_le _
  obtain ⟨x, hx, y, hy, hxy⟩ := h
  rw [phillips]
  have hmem : ∀ z, z ∈ pySort elements (· ≤ ·) ↔ z ∈ elements := fun z => hp.mem_iff
  generalize pySort elements (· ≤ ·) = l at *
  match l, hp, hs, hmem with
  | [], hp, hs, hmem => exact absurd ((hmem x).2 hx) (by simp)
  | [a], hp, hs, hmem =>
    have h1 := (hmem x).2 hx
    have h2 := (hmem y).2 hy
    simp only [List.mem_singleton] at h1 h2
    exact absurd (h1.trans h2.symm) hxy
  | [a, b], hp, hs, hmem =>
    have hab : a ≤ b := by simpa using hs
    have hne : a ≠ b := by
      rintro rfl
      have h1 := (hmem x).2 hx
      have h2 := (hmem y).2 hy
      simp only [List.mem_cons, List.not_mem_nil, or_false, or_self] at h1 h2
      exact absurd (h1.trans h2.symm) hxy
    have hlt : a < b := lt_of_le_of_ne hab hne
    refine ⟨[[a, b], [b, a]], rfl, ?_, fun t => ?_⟩
    · simp only [List.pairwise_cons, List.mem_singleton, forall_eq, List.not_mem_nil, false_imp_iff,
        implies_true, List.Pairwise.nil, and_true]
      exact cons_lt_cons.2 (Or.inl hlt)
    · constructor
      · intro ht
        simp only [List.mem_cons, List.not_mem_nil, or_false] at ht
        rcases ht with rfl | rfl
        · exact hp
        · exact (List.Perm.swap a b []).trans hp
      · intro ht
        have ht := ht.trans hp.symm
        have hl := ht.length_eq
        match t, hl with
        | [c, d], _ =>
          have hc : c ∈ [a, b] := ht.mem_iff.1 (by simp)
          simp only [List.mem_cons, List.not_mem_nil, or_false] at hc ⊢
          rcases hc with rfl | rfl
          · left
            have := (List.perm_cons c).1 ht
            rw [List.perm_singleton.1 this]
          · right
            have := (List.perm_cons c).1 (ht.trans (List.Perm.swap c a []))
            rw [List.perm_singleton.1 this]
  | a :: b :: c :: l, hp, hs, hmem =>
    obtain ⟨L, h1, h2, h3⟩ := run_likePerm (a :: b :: c :: l) (step := phillipsStep) (fun s hsp =>
      phillipsStep_eq (by rw [hsp.length_eq]; simp)
        ⟨x, hsp.mem_iff.2 ((hmem x).2 hx), y, hsp.mem_iff.2 ((hmem y).2 hy), hxy⟩)
    refine ⟨L, h1, h2, fun t => ?_⟩
    rw [h3]
    constructor
    · rintro ⟨h, -⟩; exact h.trans hp
    · intro h
      have h := h.trans hp.symm
      exact ⟨h, le_of_perm_asc hs h⟩

/-- The full claim about `phillips` fails when all elements are equal: two elements are listed twice,
three or more end in `IndexError`, and so does the empty list. -/
theorem C54_phillips_violation (a : α) (n : Nat) :
    phillips ([] : List α) = some ([[]], some .indexError) ∧
      phillips [a, a] = some ([[a, a], [a, a]], none) ∧
      phillips (List.replicate (n + 3) a) = some ([List.replicate (n + 3) a], some .indexError) := by
  have hrep : ∀ k, pySort (List.replicate k a) (· ≤ ·) = List.replicate k a := by
    intro k
    have hp : (pySort (List.replicate k a) (· ≤ ·)).Perm (List.replicate k a) := pySort_perm _ _
    exact List.perm_replicate.1 hp
  refine ⟨?_, ?_, ?_⟩
  · have : pySort ([] : List α) (· ≤ ·) = [] := hrep 0 |> fun h => by simpa using h
    rw [phillips, this]
  · have : pySort [a, a] (· ≤ ·) = [a, a] := hrep 2
    rw [phillips, this]
  · have := hrep (n + 3)
    rw [phillips, this]
    have e : List.replicate (n + 3) a = a :: a :: a :: List.replicate n a := rfl
    have hr : run phillipsStep id (List.replicate (n + 3) a)
        = some ([List.replicate (n + 3) a], some .indexError) := by
      rw [run_raise (e := .indexError)]
      · rfl
      · refine phillipsStep_const (by simp) (fun x hx y hy => ?_)
        rw [List.eq_of_mem_replicate hx, List.eq_of_mem_replicate hy]
    rw [e] at hr ⊢
    exact hr

end

example : knuthL ([2, 1, 2] : List Nat) = some ([[1, 2, 2], [2, 1, 2], [2, 2, 1]], none) :=
  run_of_runN 5 (by decide +kernel)

example : phillips ([2, 1, 2, 3] : List Nat) = some ([[1, 2, 2, 3], [1, 2, 3, 2], [1, 3, 2, 2], [2, 1, 2, 3],
    [2, 1, 3, 2], [2, 2, 1, 3], [2, 2, 3, 1], [2, 3, 1, 2], [2, 3, 2, 1], [3, 1, 2, 2], [3, 2, 1, 2],
    [3, 2, 2, 1]], none) :=
  run_of_runN 15 (by decide +kernel)

example : knuthLRVariations ([2, 1, 2] : List Nat) 2 = some ([[1, 2], [2, 1], [2, 2]], none) :=
  run_of_runN 5 (by decide +kernel)

example : knuthLVariations ([2, 1] : List Nat) = some ([[], [1], [1, 2], [2], [2, 1]], none) := by
  rw [knuthLVariations, if_neg (by decide), run_of_runN 5 (r := ([[1], [1, 2], [2], [2, 1]], none)) (by decide +kernel)]

end Rosemary.Props
