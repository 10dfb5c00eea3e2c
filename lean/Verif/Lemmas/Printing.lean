import Verif.Model.Printing
import Verif.Spec.Reading
import Mathlib.Algebra.Order.Ring.Int
import Mathlib.Tactic.Ring
import Mathlib.Tactic.Linarith

/-!
# Printing and reading
-/

namespace Rosemary.Printing

open Rosemary.Reading

theorem pieces_none {c : Char} {l : List Char} (h : c ∉ l) : pieces c l = [l] := by
  induction l with
  | nil => rfl
  | cons x l ih =>
    rw [List.mem_cons, not_or] at h
    rw [pieces, if_neg (fun e => h.1 e.symm), ih h.2]

theorem pieces_cons {c : Char} {l : List Char} (h : c ∉ l) (r : List Char) : pieces c (l ++ c :: r) = l :: pieces c r := by
  induction l with
  | nil => rw [List.nil_append, pieces, if_pos rfl]
  | cons x l ih =>
    rw [List.mem_cons, not_or] at h
    rw [List.cons_append, pieces, if_neg (fun e => h.1 e.symm), ih h.2]

theorem digit_of_mem {n : ℕ} {c : Char} (h : c ∈ Nat.toDigits 10 n) : c.isDigit = true :=
  Nat.isDigit_of_mem_toDigits (by omega) (by omega) h

theorem not_mem_digits {n : ℕ} {c : Char} (h : c.isDigit = false) : c ∉ Nat.toDigits 10 n := fun hc => by
  rw [digit_of_mem hc] at h
  cases h

theorem readNat_digits (n : ℕ) : readNat (Nat.toDigits 10 n) = some n := by
  rw [readNat, if_pos ⟨Nat.toDigits_ne_nil, List.all_eq_true.2 (fun c hc => digit_of_mem hc)⟩]
  congr 1
  exact Nat.ofDigitChars_toDigits (by omega) (by omega)

theorem strOf_nonneg {c : ℤ} (h : 0 ≤ c) : strOf c = Nat.toDigits 10 c.natAbs := by
  rw [strOf, if_neg (by omega)]

theorem readInt_strOf (c : ℤ) : readInt (strOf c) = some c := by
  by_cases h : c < 0
  · rw [strOf, if_pos h, readInt, readNat_digits]
    exact congrArg some (show -((c.natAbs : ℕ) : ℤ) = c by omega)
  · rw [strOf_nonneg (by omega)]
    have hd : ∀ l, Nat.toDigits 10 c.natAbs ≠ '-' :: l := by
      intro l e
      have := not_mem_digits (n := c.natAbs) (c := '-') (by decide)
      rw [e] at this
      exact this List.mem_cons_self
    have : readInt (Nat.toDigits 10 c.natAbs) = (readNat (Nat.toDigits 10 c.natAbs)).map (fun n => (n : ℤ)) := by
      rw [readInt.eq_def]
      split
      · rename_i l e
        exact absurd e (hd l)
      · rfl
    rw [this, readNat_digits]
    exact congrArg some (show ((c.natAbs : ℕ) : ℤ) = c by omega)

theorem strOf_mem {c : ℤ} {x : Char} (h : x.isDigit = false) (h' : x ≠ '-') : x ∉ strOf c := by
  unfold strOf
  split
  · rw [List.mem_cons, not_or]
    exact ⟨h', not_mem_digits h⟩
  · exact not_mem_digits h

theorem strOf_ne_nil (c : ℤ) : strOf c ≠ [] := by
  unfold strOf
  split
  · simp
  · exact Nat.toDigits_ne_nil

/-! ### Polynomials -/

theorem readPower_name {v : List Char} (hv : GoodName v) (x : ℤ) {deg : ℕ} (hd : 0 < deg) :
    readPower v x (v ++ (if deg > 1 then '^' :: strOf deg else [])) = some (x ^ deg) := by
  by_cases h : deg > 1
  · rw [if_pos h, readPower, pieces_cons hv.2.2.2, pieces_none (strOf_mem (by decide) (by decide)), strOf_nonneg (by omega)]
    simp only [if_true]
    rw [readNat_digits]
    simp
  · rw [if_neg h, List.append_nil, readPower, pieces_none hv.2.2.2]
    have : deg = 1 := by omega
    simp [this]

theorem star_not_mem {v : List Char} (hv : GoodName v) (deg : ℕ) : '*' ∉ v ++ (if deg > 1 then '^' :: strOf deg else []) := by
  rw [List.mem_append, not_or]
  refine ⟨hv.2.2.1, ?_⟩
  split
  · rw [List.mem_cons, not_or]
    exact ⟨by decide, strOf_mem (by decide) (by decide)⟩
  · exact List.not_mem_nil

/-- A printed term has the value of the term. -/
theorem readTerm_print {v : List Char} (hv : GoodName v) (x : ℤ) (deg : ℕ) {c : ℤ} (hc : 0 < c) :
    readTerm v x (printTerm v deg c) = some (c * x ^ deg) := by
  have hn : ((c.natAbs : ℕ) : ℤ) = c := by omega
  by_cases hd : deg = 0
  · rw [printTerm, if_pos hd, readTerm, pieces_none (strOf_mem (by decide) (by decide)), strOf_nonneg hc.le]
    simp only
    rw [readNat_digits]
    simp [hd, hn]
  · rw [printTerm, if_neg hd]
    by_cases h1 : c = 1
    · rw [if_neg (by simp [h1]), List.nil_append, readTerm, pieces_none (star_not_mem hv deg)]
      simp only
      have : readNat (v ++ (if deg > 1 then '^' :: strOf deg else [])) = none := by
        rw [readNat, if_neg]
        rintro ⟨-, h⟩
        obtain ⟨⟨a, l, rfl, ha, -⟩, -⟩ := hv
        simp [ha] at h
      rw [this]
      simp only
      rw [readPower_name hv x (by omega), h1, one_mul]
    · rw [if_pos h1, List.append_assoc, List.append_assoc, List.singleton_append, readTerm,
        pieces_cons (strOf_mem (by decide) (by decide)), pieces_none (star_not_mem hv deg), strOf_nonneg hc.le]
      simp only
      rw [readNat_digits, readPower_name hv x (by omega)]
      simp only [hn]

theorem space_not_mem {v : List Char} (hv : GoodName v) (deg : ℕ) (c : ℤ) : ' ' ∉ printTerm v deg c := by
  have hs : ∀ c : ℤ, ' ' ∉ strOf c := fun c => strOf_mem (by decide) (by decide)
  unfold printTerm
  split
  · exact hs c
  · simp only [List.mem_append, not_or]
    refine ⟨⟨?_, hv.2.1⟩, ?_⟩
    · split
      · rw [List.mem_append, not_or]
        exact ⟨hs c, by decide⟩
      · exact List.not_mem_nil
    · split
      · rw [List.mem_cons, not_or]
        exact ⟨by decide, hs _⟩
      · exact List.not_mem_nil

theorem minus_not_head {v : List Char} (hv : GoodName v) (deg : ℕ) {c : ℤ} (hc : 0 < c) (l : List Char) :
    printTerm v deg c ≠ '-' :: l := by
  have hs : ∀ r, strOf c ++ r ≠ '-' :: l := by
    intro r e
    have hm : '-' ∉ strOf c := by rw [strOf_nonneg hc.le]; exact not_mem_digits (by decide)
    cases h : strOf c with
    | nil => exact strOf_ne_nil c h
    | cons a s =>
      rw [h] at e hm
      simp only [List.cons_append, List.cons.injEq] at e
      exact hm (by rw [e.1]; exact List.mem_cons_self)
  unfold printTerm
  split
  · have := hs []
    rwa [List.append_nil] at this
  · split
    · rw [List.append_assoc, List.append_assoc]
      exact hs _
    · obtain ⟨⟨a, r, rfl, -, ha⟩, -⟩ := hv
      intro e
      simp only [List.nil_append, List.cons_append, List.cons.injEq] at e
      exact ha e.1

/-- The words of the terms after the first. -/
def opWords (v : List Char) : List (ℕ × ℤ) → List (List Char)
  | [] => []
  | (deg, coeff) :: terms => (if coeff < 0 then ['-'] else ['+']) :: printTerm v deg |coeff| :: opWords v terms

theorem pieces_terms {v : List Char} (hv : GoodName v) {degree : ℕ} (terms : List (ℕ × ℤ)) (ht : ∀ t ∈ terms, t.1 < degree)
    {l : List Char} (hl : ' ' ∉ l) : pieces ' ' (l ++ printTerms v degree terms) = l :: opWords v terms := by
  induction terms generalizing l with
  | nil => rw [printTerms, List.append_nil, pieces_none hl, opWords]
  | cons t terms ih =>
    obtain ⟨deg, c⟩ := t
    have h1 : deg < degree := ht (deg, c) List.mem_cons_self
    have h2 := ih (fun t h => ht t (List.mem_cons_of_mem _ h)) (space_not_mem hv deg |c|)
    rw [printTerms, if_pos h1, opWords, ← h2]
    by_cases hc : c < 0
    · rw [if_pos hc, if_pos hc]
      have e : " - ".toList = ' ' :: (['-'] ++ [' ']) := by decide
      rw [e]
      simp only [List.cons_append, List.append_assoc, List.nil_append]
      rw [pieces_cons hl]
      exact congrArg _ (pieces_cons (l := ['-']) (by decide) _)
    · rw [if_neg hc, if_neg hc]
      have e : " + ".toList = ' ' :: (['+'] ++ [' ']) := by decide
      rw [e]
      simp only [List.cons_append, List.append_assoc, List.nil_append]
      rw [pieces_cons hl]
      exact congrArg _ (pieces_cons (l := ['+']) (by decide) _)

theorem readSum_words {v : List Char} (hv : GoodName v) (x : ℤ) (terms : List (ℕ × ℤ)) (ht : ∀ t ∈ terms, t.2 ≠ 0) :
    readSum v x (opWords v terms) = some ((terms.map (fun t => t.2 * x ^ t.1)).sum) := by
  induction terms with
  | nil => rfl
  | cons t terms ih =>
    obtain ⟨deg, c⟩ := t
    have hc : c ≠ 0 := ht (deg, c) List.mem_cons_self
    rw [opWords, readSum, readTerm_print hv x deg (abs_pos.2 hc), ih (fun t h => ht t (List.mem_cons_of_mem _ h))]
    simp only [List.map_cons, List.sum_cons]
    by_cases h : c < 0
    · rw [if_pos h, if_neg (by decide), if_pos rfl, abs_of_neg h]
      congr 1
      ring
    · rw [if_neg h, if_pos rfl, abs_of_pos (by omega)]

/-- A sum of printed terms, the first one without blanks around its sign. -/
theorem readPoly_terms {v : List Char} (hv : GoodName v) (x : ℤ) (deg : ℕ) {c : ℤ} (hc : c ≠ 0) (terms : List (ℕ × ℤ))
    (ht : ∀ t ∈ terms, t.2 ≠ 0 ∧ t.1 < deg) :
    readPoly v x ((if c < 0 then ['-'] else []) ++ printTerms v deg ((deg, c) :: terms)) =
      some (c * x ^ deg + (terms.map (fun t => t.2 * x ^ t.1)).sum) := by
  rw [printTerms, if_neg (lt_irrefl _), List.nil_append, readPoly, ← List.append_assoc]
  have hsp : ' ' ∉ (if c < 0 then ['-'] else []) ++ printTerm v deg |c| := by
    rw [List.mem_append, not_or]
    refine ⟨?_, space_not_mem hv deg |c|⟩
    split <;> decide
  rw [pieces_terms hv terms (fun t h => (ht t h).2) hsp]
  have hr := readTerm_print hv x deg (abs_pos.2 hc)
  have hs := readSum_words hv x terms (fun t h => (ht t h).1)
  by_cases h : c < 0
  · rw [if_pos h]
    simp only [List.cons_append, List.nil_append]
    rw [hr, hs]
    simp only [abs_of_neg h]
    congr 1
    ring
  · rw [if_neg h, List.nil_append]
    split
    · rename_i t ts e
      rw [List.cons.injEq] at e
      exact absurd e.1 (minus_not_head hv deg (abs_pos.2 hc) t)
    · rename_i t ts _ e
      rw [List.cons.injEq] at e
      rw [← e.1, ← e.2, hr, hs]
      simp only [abs_of_pos (show 0 < c by omega)]
    · rename_i e
      cases e

/-! ### Matrices -/

theorem pieces_space {l : List Char} : pieces ' ' (' ' :: l) = [] :: pieces ' ' l := by rw [pieces, if_pos rfl]

theorem words_space (k : ℕ) (l : List Char) : words (List.replicate k ' ' ++ l) = words l := by
  induction k with
  | zero => rfl
  | succ k ih =>
    rw [List.replicate_succ, List.cons_append, words, pieces_space, List.filter_cons_of_neg (by simp)]
    exact ih

theorem words_last {l : List Char} (h : ' ' ∉ l) (h0 : l ≠ []) : words l = [l] := by
  rw [words, pieces_none h, List.filter_cons_of_pos (by simpa using h0), List.filter_nil]

theorem words_cons {l : List Char} (h : ' ' ∉ l) (h0 : l ≠ []) (r : List Char) : words (l ++ ' ' :: r) = l :: words r := by
  rw [words, pieces_cons h, List.filter_cons_of_pos (by simpa using h0)]
  rfl

theorem words_row (n : ℕ) (row : List ℤ) : words (rowItems n row) = row.map strOf := by
  have hs : ∀ x, ' ' ∉ strOf x := fun x => strOf_mem (by decide) (by decide)
  induction row with
  | nil => rfl
  | cons x row ih =>
    cases row with
    | nil => rw [rowItems, rjust, words_space, words_last (hs x) (strOf_ne_nil x)]; rfl
    | cons y row =>
      rw [rowItems, rjust, List.append_assoc, words_space, words_cons (hs x) (strOf_ne_nil x), ih]
      rfl

theorem mapM_readInt (row : List ℤ) : (row.map strOf).mapM readInt = some row := by
  induction row with
  | nil => rfl
  | cons x row ih =>
    rw [List.map_cons, List.mapM_cons, readInt_strOf, ih]
    rfl

theorem readRow_items (n : ℕ) (row : List ℤ) : readRow ('[' :: rowItems n row ++ [']']) = some row := by
  rw [List.cons_append, readRow, if_pos (by simp), List.dropLast_concat, words_row, mapM_readInt]

theorem newline_not_mem (n : ℕ) (row : List ℤ) : '\n' ∉ rowItems n row := by
  have hs : ∀ x, '\n' ∉ rjust n (strOf x) := by
    intro x
    rw [rjust, List.mem_append, not_or]
    refine ⟨fun h => ?_, strOf_mem (by decide) (by decide)⟩
    have := List.eq_of_mem_replicate h
    revert this
    decide
  induction row with
  | nil => exact List.not_mem_nil
  | cons x row ih =>
    cases row with
    | nil => exact hs x
    | cons y row =>
      rw [rowItems, List.mem_append, List.mem_cons, not_or, not_or]
      exact ⟨hs x, by decide, ih⟩

theorem pieces_matrix (n : ℕ) {m : List (List ℤ)} (hm : m ≠ []) :
    pieces '\n' (matrixItems n m) = m.map (fun row => '[' :: rowItems n row ++ [']']) := by
  have hrow : ∀ row, '\n' ∉ '[' :: rowItems n row ++ [']'] := by
    intro row
    simp only [List.mem_append, List.mem_cons, not_or, List.not_mem_nil, not_false_eq_true, and_true]
    exact ⟨⟨by decide, newline_not_mem n row⟩, by decide⟩
  induction m with
  | nil => exact absurd rfl hm
  | cons row m ih =>
    cases m with
    | nil => rw [matrixItems, pieces_none (hrow row)]; rfl
    | cons row' m =>
      have e : matrixItems n (row :: row' :: m) = ('[' :: rowItems n row ++ [']']) ++ '\n' :: matrixItems n (row' :: m) := by
        rw [matrixItems]
        simp
      rw [e, pieces_cons (hrow row), ih (by simp)]
      rfl

theorem readMatrix_items (n : ℕ) {m : List (List ℤ)} (hm : m ≠ []) : readMatrix (matrixItems n m) = some m := by
  rw [readMatrix, pieces_matrix n hm]
  clear hm
  induction m with
  | nil => rfl
  | cons row m ih =>
    rw [List.map_cons, List.mapM_cons, readRow_items, ih]
    rfl

theorem length_rowItems {n : ℕ} {row : List ℤ} (h : ∀ x ∈ row, (strOf x).length ≤ n) :
    (rowItems n row).length = row.length * n + (row.length - 1) := by
  have hr : ∀ x ∈ row, (rjust n (strOf x)).length = n := by
    intro x hx
    have := h x hx
    rw [rjust, List.length_append, List.length_replicate]
    omega
  clear h
  induction row with
  | nil => simp [rowItems]
  | cons x row ih =>
    cases row with
    | nil => simp [rowItems, hr x List.mem_cons_self]
    | cons y row =>
      have := ih (fun z hz => hr z (List.mem_cons_of_mem _ hz))
      rw [rowItems, List.length_append, hr x List.mem_cons_self, List.length_cons, this]
      simp only [List.length_cons, Nat.add_sub_cancel]
      ring

theorem foldl_maxLen (l : List ℤ) (n : ℕ) :
    n ≤ l.foldl (fun n x => if (strOf x).length > n then (strOf x).length else n) n ∧
      ∀ x ∈ l, (strOf x).length ≤ l.foldl (fun n x => if (strOf x).length > n then (strOf x).length else n) n := by
  induction l generalizing n with
  | nil => exact ⟨le_refl _, fun x hx => absurd hx List.not_mem_nil⟩
  | cons y l ih =>
    rw [List.foldl_cons]
    obtain ⟨h1, h2⟩ := ih (if (strOf y).length > n then (strOf y).length else n)
    have h3 : n ≤ (if (strOf y).length > n then (strOf y).length else n) ∧
        (strOf y).length ≤ (if (strOf y).length > n then (strOf y).length else n) := by split <;> omega
    refine ⟨le_trans h3.1 h1, fun x hx => ?_⟩
    rcases List.mem_cons.1 hx with rfl | hx
    · exact le_trans h3.2 h1
    · exact h2 x hx

end Rosemary.Printing
