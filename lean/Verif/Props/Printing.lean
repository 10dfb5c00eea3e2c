import Verif.Lemmas.Printing
import Verif.Lemmas.PolyGcd
import Verif.Props.Polynomials
import Verif.Props.Matrices

/-!
# C145: what is printed
-/

namespace Rosemary.Props

open Rosemary.Printing Rosemary.Reading

private theorem terms_sum (f : List ℤ) (x : ℤ) (hf : Polys.Reduced f) :
    ((List.range f.length).map (fun i => f.getD i 0 * x ^ i)).sum = Polys.call f x := by
  have h := (C50_ring_operations_partial f f 0 x).2.2.2.2.2.2.2.1
  rw [Polys.mk_of_reduced hf] at h
  rw [h]
  congr 1
  apply List.ext_getElem
  · simp
  · intro i h1 h2
    simp only [List.length_map, List.length_range] at h1
    simp [h1]

private theorem filter_sum (l : List (ℕ × ℤ)) (x : ℤ) :
    ((l.filter (fun t => t.2 ≠ 0)).map (fun t => t.2 * x ^ t.1)).sum = (l.map (fun t => t.2 * x ^ t.1)).sum := by
  induction l with
  | nil => rfl
  | cons t l ih =>
    by_cases h : t.2 = 0
    · rw [List.filter_cons_of_neg (by simp [h]), ih, List.map_cons, List.sum_cons, h, zero_mul, zero_add]
    · rw [List.filter_cons_of_pos (by simpa using h), List.map_cons, List.sum_cons, ih, List.map_cons, List.sum_cons]

/-- C145: the text of a polynomial, read as a sum of multiples of powers of the variable, has the value of the polynomial, for
every value of the variable. -/
theorem C145_polynomial {v : List Char} (hv : GoodName v) {f : List ℤ} (hf : Polys.Reduced f) (x : ℤ) :
    readPoly v x (reprPoly v f) = some (Polys.call f x) := by
  rw [← terms_sum f x hf]
  by_cases h1 : f.length = 1
  · rw [reprPoly, if_pos h1, h1]
    have e : ((List.range 1).map (fun i => f.getD i 0 * x ^ i)).sum = f.getD 0 0 := by simp
    rw [e]
    generalize f.getD 0 0 = c
    by_cases hc : c = 0
    · subst hc
      rw [strOf_nonneg (le_refl _)]
      rfl
    · have := readPoly_terms hv x 0 hc [] (fun t h => absurd h List.not_mem_nil)
      rw [printTerms, if_neg (lt_irrefl _), printTerms, printTerm, if_pos rfl, List.append_nil, List.nil_append] at this
      have e2 : (if c < 0 then ['-'] else []) ++ strOf |c| = strOf c := by
        rw [strOf_nonneg (abs_nonneg c), Int.natAbs_abs]
        unfold strOf
        split <;> rfl
      rw [e2] at this
      rw [this]
      simp
  · have hl : 2 ≤ f.length := by
      rcases f with _ | ⟨a, _ | ⟨b, f⟩⟩
      · exact absurd rfl hf.1
      · exact absurd rfl h1
      · simp
    obtain ⟨n, hn⟩ : ∃ n, f.length = n + 1 := ⟨f.length - 1, by omega⟩
    have hlead : f.getD n 0 ≠ 0 := by
      have := hf.2 (by omega)
      rwa [hn] at this
    rw [reprPoly, if_neg h1, hn]
    simp only [Nat.add_sub_cancel]
    have hterms : (((List.range (n + 1)).map (fun i => (i, f.getD i 0))).filter (fun t => t.2 ≠ 0)).reverse =
        (n, f.getD n 0) :: (((List.range n).map (fun i => (i, f.getD i 0))).filter (fun t => t.2 ≠ 0)).reverse := by
      rw [List.range_succ, List.map_append, List.filter_append, List.reverse_append, List.map_singleton,
        List.filter_cons_of_pos (by simpa using hlead), List.filter_nil]
      rfl
    rw [hterms]
    simp only
    rw [readPoly_terms hv x n hlead]
    · rw [List.map_reverse, List.sum_reverse, filter_sum, List.map_map, List.range_succ, List.map_append, List.sum_append]
      simp only [List.map_singleton, List.sum_singleton]
      congr 1
      rw [add_comm]
      rfl
    · intro t ht
      rw [List.mem_reverse, List.mem_filter, List.mem_map] at ht
      obtain ⟨⟨i, hi, rfl⟩, h2⟩ := ht
      rw [List.mem_range] at hi
      exact ⟨by simpa using h2, hi⟩

/-- C145: polynomials with the same text are equal. -/
theorem C145_polynomial_unambiguous {v : List Char} (hv : GoodName v) {f g : List ℤ} (hf : Polys.Reduced f)
    (hg : Polys.Reduced g) : reprPoly v f = reprPoly v g ↔ f = g := by
  constructor
  · intro h
    have := (C50_equality f g hf hg).2 (fun x => by
      have h1 := C145_polynomial hv hf x
      rw [h, C145_polynomial hv hg x] at h1
      exact (Option.some.inj h1).symm)
    exact beq_iff_eq.1 this
  · rintro rfl
    rfl

private theorem mapM_ok {α β : Type} (l : List α) (f : α → Except PyErr β) (g : α → β) (h : ∀ a ∈ l, f a = .ok (g a)) :
    l.mapM f = .ok (l.map g) := by
  induction l with
  | nil => rfl
  | cons a l ih =>
    rw [List.mapM_cons, h a List.mem_cons_self, ih (fun a ha => h a (List.mem_cons_of_mem _ ha))]
    rfl

/-- C145: the text of a matrix, one row in a line, has the entries of the matrix, and all lines have the same length. -/
theorem C145_matrix {r c : ℕ} (hr : 0 < r) (M : Matrix (Fin r) (Fin c) ℤ) :
    ∃ s, reprMatrix (rowsOf M) = .ok s ∧ readMatrix s = some (rowsOf M) ∧
      ∃ w, ∀ line ∈ pieces '\n' s, line.length = w := by
  have hread : (List.range r).mapM (fun i => (List.range c).mapM (fun j => Matrices.get (rowsOf M) i j)) =
      .ok (rowsOf M) := by
    rw [mapM_ok _ _ (fun i => (List.range c).map (fun j => extend M i j)) (fun i hi => mapM_ok _ _ _ (fun j hj => by
      rw [rowsOf_eq, Matrices.get_table _ (List.mem_range.1 hi) (List.mem_range.1 hj)]))]
    congr 1
    rw [rowsOf_eq, Matrices.table]
    apply List.ext_getElem
    · simp
    · intro i h1 h2
      simp only [List.getElem_map, List.getElem_range, List.getElem_ofFn]
      apply List.ext_getElem
      · simp
      · intro j h3 h4
        simp
  have hne : rowsOf M ≠ [] := by
    intro e
    have := congrArg List.length e
    simp [rowsOf] at this
    omega
  have hn : Matrices.nrows (rowsOf M) = r := by rw [rowsOf_eq, Matrices.nrows_table]
  have hc : Matrices.ncols (rowsOf M) = c := by rw [rowsOf_eq, Matrices.ncols_table hr]
  rw [reprMatrix, hn, hc, hread]
  refine ⟨_, rfl, readMatrix_items _ hne, ?_⟩
  generalize hw : (rowsOf M).flatten.foldl (fun n x => if (strOf x).length > n then (strOf x).length else n) 0 = w
  refine ⟨c * w + (c - 1) + 2, fun line hline => ?_⟩
  rw [pieces_matrix w hne, List.mem_map] at hline
  obtain ⟨row, hrow, rfl⟩ := hline
  have hlen : row.length = c := by
    unfold rowsOf at hrow
    rw [List.mem_ofFn'] at hrow
    obtain ⟨i, rfl⟩ := hrow
    simp
  rw [List.length_append, List.length_cons, length_rowItems (n := w) (row := row) (fun x hx => by
    rw [← hw]
    exact (foldl_maxLen _ 0).2 x (List.mem_flatten.2 ⟨row, hrow, hx⟩)), hlen]
  rfl

/-- C145: the text of a quadratic irrational means `(p + √d) / q`, unless `p ≠ 0` and `q = 1`. -/
theorem C145_quadratic_partial (d p q : ℤ) (h : p = 0 ∨ q ≠ 1) : Reading.Sum (reprQuad d p q) ((p + √(d : ℝ)) / q) := by
  have num : ∀ z : ℤ, Atom (strOf z) z := fun z => Atom.num (readInt_strOf z)
  have root : Atom ("sqrt(".toList ++ strOf d ++ ")".toList) (√(d : ℝ)) := Atom.sqrt (Sum.quotient (Quotient.atom (num d)))
  unfold reprQuad
  by_cases hp : p = 0
  · rw [if_pos hp]
    by_cases hq : q = 1
    · rw [if_pos hq, hp, hq]
      have := Sum.quotient (Quotient.atom root)
      simpa using this
    · rw [if_neg hq, hp]
      have := Sum.quotient (Quotient.div (Quotient.atom root) (num q))
      simpa using this
  · have hq : q ≠ 1 := by
      rcases h with h | h
      · exact absurd h hp
      · exact h
    rw [if_neg hp, if_neg hq]
    have := Sum.quotient (Quotient.div (Quotient.atom (Atom.par
      (Sum.add (Sum.quotient (Quotient.atom (num p))) (Quotient.atom root)))) (num q))
    simpa using this

/-- C145, the missing part: for `q = 1` and `p ≠ 0` the text is that of `1 + √d`, whatever `p` is. -/
theorem C145_quadratic_violation (d p : ℤ) (hp : p ≠ 0) : reprQuad d p 1 = reprQuad d 1 1 ∧
    Reading.Sum (reprQuad d p 1) (1 + √(d : ℝ)) ∧ (p ≠ 1 → (p + √(d : ℝ)) / (1 : ℤ) ≠ 1 + √(d : ℝ)) := by
  have num : ∀ z : ℤ, Atom (strOf z) z := fun z => Atom.num (readInt_strOf z)
  have root : Atom ("sqrt(".toList ++ strOf d ++ ")".toList) (√(d : ℝ)) := Atom.sqrt (Sum.quotient (Quotient.atom (num d)))
  refine ⟨?_, ?_, ?_⟩
  · simp [reprQuad, hp]
  · unfold reprQuad
    rw [if_neg hp, if_pos rfl]
    have := Sum.add (Sum.quotient (Quotient.atom (num 1))) (Quotient.atom root)
    simpa using this
  · intro h1 e
    rw [Int.cast_one, div_one, add_left_inj] at e
    exact h1 (by exact_mod_cast e)

example : reprPoly ['x'] [-1, 1, 0, -3] = "-3*x^3 + x - 1".toList := by decide +kernel
example : readPoly ['x'] 2 "-3*x^3 + x - 1".toList = some (-23) := by decide +kernel
example : GoodName "x1".toList := ⟨⟨'x', ['1'], by decide, by decide, by decide⟩, by decide, by decide, by decide⟩
example : reprMatrix [[1, -20], [3, 4]] = .ok "[  1 -20]\n[  3   4]".toList := by decide +kernel
example : reprQuad 7 2 3 = "(2 + sqrt(7))/3".toList ∧ reprQuad 7 2 1 = "1 + sqrt(7)".toList := by decide +kernel
/-- The name of the variable matters: with the name `2` the polynomial `x` is printed as the number 2 is. -/
example : reprPoly ['2'] [0, 1] = reprPoly ['2'] [2] := by decide +kernel

end Rosemary.Props
