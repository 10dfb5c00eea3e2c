import Verif.Model.GraphMatrices
import Verif.Lemmas.TreeCount
import Verif.Props.Matrices
import Verif.Props.Maxis
import Mathlib.Data.List.Sort
import Mathlib.Data.Nat.Choose.Basic
import Mathlib.Data.Nat.Choose.Cast
import Mathlib.Data.Finset.Powerset
import Mathlib.Tactic.Positivity
import Mathlib.Algebra.Order.Field.Basic
import Mathlib.Tactic.Ring

/-!
# The matrices of a graph (C110, C111)

Graphs are those that any sequence of `Graph` operations builds.
-/

namespace Rosemary.Props

open Rosemary.Graph Rosemary.Matrices Rosemary.Spec
open Rosemary.Traversal (E)
open BigOperators

variable {V W : Type} [LinearOrder V]

/-- `x 0, ..., x (n - 1)` are the vertices in increasing order. -/
def Enumerates (ops : List (Op V W)) {n : ℕ} (x : Fin n → V) : Prop :=
  StrictMono x ∧ ∀ v, v ∈ (toAbs (history ops)).verts ↔ ∃ i, x i = v

open Classical in
/-- The adjacency matrix. -/
noncomputable def adjacencyOf (g : Graph V W) {n : ℕ} (x : Fin n → V) : Matrix (Fin n) (Fin n) ℤ :=
  fun i j => if Linked g (x i) (x j) then 1 else 0

open Classical in
/-- The diagonal matrix of the degrees. -/
noncomputable def degreesOf (g : Graph V W) {n : ℕ} (x : Fin n → V) : Matrix (Fin n) (Fin n) ℤ :=
  fun i j => if i = j then ({v | Linked g (x i) v}.ncard : ℤ) else 0

theorem vertices_ofFn {ops : List (Op V W)} {n : ℕ} {x : Fin n → V} (hx : Enumerates ops x) :
    vertices (history ops) = List.ofFn x := by
  obtain ⟨h1, h2⟩ := vertices_spec (history_spec ops).1
  have hs := pairwise_pySort (le := fun a b : V => decide (a ≤ b)) (by simpa using fun a b c => le_trans)
    (by simpa using le_total) (Dict.keys (history ops))
  refine List.Perm.eq_of_pairwise (le := (· ≤ ·)) (fun a b _ _ hab hba => le_antisymm hab hba)
    (hs.imp (by simp)) ?_ ?_
  · rw [List.pairwise_ofFn]
    exact fun i j hij => (hx.1 hij).le
  · rw [List.perm_ext_iff_of_nodup h1 (List.nodup_ofFn.2 hx.1.injective)]
    intro v
    rw [h2, List.mem_ofFn]
    exact hx.2 v

/-- A loop that changes entries of a zero matrix. -/
theorem fill_table {r c : ℕ} {step : ℕ → ℕ → Entries → Except PyErr Entries} (v : ℕ → ℕ → ℤ)
    (h : ∀ i j g, i < r → j < c → g i j = 0 → step i j (table r c g) = .ok (table r c (upd g i j (v i j)))) :
    forRange 0 r (fun i R => forRange 0 c (fun j R => step i j R) R) (zeros r c) = .ok (table r c v) := by
  have h0 : zeros r c = (fun i => table r c (fun a b => if a < i then v a b else 0)) 0 := by
    rw [zeros_eq]
    exact table_congr (fun a b _ _ => by simp)
  rw [h0, forRange_ok (fun i => table r c (fun a b => if a < i then v a b else 0)) (Nat.zero_le r)]
  · congr 1
    exact table_congr (fun a b ha _ => if_pos ha)
  · intro i _ hi
    have h1 : table r c (fun a b => if a < i then v a b else 0) =
        (fun j => table r c (fun a b => if a < i ∨ (a = i ∧ b < j) then v a b else 0)) 0 :=
      table_congr (fun a b _ _ => by simp)
    rw [h1, forRange_ok (fun j => table r c (fun a b => if a < i ∨ (a = i ∧ b < j) then v a b else 0)) (Nat.zero_le c)]
    · congr 1
      refine table_congr (fun a b ha hb => ?_)
      by_cases e : a < i + 1
      · rw [if_pos e, if_pos (by omega)]
      · rw [if_neg e, if_neg (by omega)]
    · intro j _ hj
      rw [h i j _ hi hj (by rw [if_neg]; omega)]
      congr 1
      refine table_congr (fun a b ha hb => ?_)
      rw [upd]
      by_cases e : a = i ∧ b = j
      · rw [if_pos e, if_pos (by omega), e.1, e.2]
      · rw [if_neg e]
        by_cases e' : a < i ∨ (a = i ∧ b < j)
        · rw [if_pos e', if_pos (by omega)]
        · rw [if_neg e', if_neg (by omega)]

theorem get?_of_vert {ops : List (Op V W)} {u : V} (hu : u ∈ (toAbs (history ops)).verts) :
    ∃ N, Dict.get? (history ops) u = some N ∧ (∀ v, v ∈ Dict.keys N ↔ Linked (history ops) u v) ∧
      N.length = {v | Linked (history ops) u v}.ncard := by
  have hg := (history_spec ops).1
  obtain ⟨N, hN⟩ := Dict.get?_isSome.2 (show u ∈ Dict.keys (history ops) from hu)
  have hnb : nbrs (history ops) u = Dict.keys N := by rw [nbrs, hN]; rfl
  refine ⟨N, hN, fun v => ?_, ?_⟩
  · rw [← hnb, ← E_eq]; rfl
  · have := length_nbrs hg u
    rw [hnb, Dict.keys, List.length_map] at this
    exact this

/-- C110: `adjacency_matrix` of a graph with vertices returns the matrix of zeros and ones, in the increasing order of
the vertices. -/
theorem C110_adjacency (ops : List (Op V W)) {n : ℕ} (hn : 0 < n) (x : Fin n → V) (hx : Enumerates ops x) :
    adjacencyMatrix (history ops) = .ok (rowsOf (adjacencyOf (history ops) x)) := by
  have hlen : (List.ofFn x).length = n := List.length_ofFn
  rw [adjacencyMatrix, vertices_ofFn hx]
  rw [hlen, zeros_eq, construct_table hn, ← zeros_eq]
  show forRange 0 n _ (zeros n n) = _
  rw [fill_table (extend (adjacencyOf (history ops) x)), rowsOf_eq]
  intro i j g hi hj h0
  rw [List.getElem?_eq_getElem (by rw [hlen]; exact hi), List.getElem?_eq_getElem (by rw [hlen]; exact hj)]
  dsimp only
  rw [List.getElem_ofFn, List.getElem_ofFn]
  obtain ⟨N, h1, h2, -⟩ := get?_of_vert ((hx.2 (x ⟨i, by omega⟩)).2 ⟨_, rfl⟩)
  rw [h1]
  dsimp only
  have hext : extend (adjacencyOf (history ops) x) i j = adjacencyOf (history ops) x ⟨i, hi⟩ ⟨j, hj⟩ := by
    rw [extend, dif_pos ⟨hi, hj⟩]
  rw [hext, adjacencyOf]
  by_cases h : Linked (history ops) (x ⟨i, hi⟩) (x ⟨j, hj⟩)
  · rw [if_pos ((h2 _).2 h), if_pos h, put_table _ hi hj]
  · rw [if_neg (fun h' => h ((h2 _).1 h')), if_neg h]
    congr 1
    refine table_congr (fun a b _ _ => ?_)
    rw [upd]
    by_cases hab : a = i ∧ b = j
    · rw [if_pos hab, hab.1, hab.2, h0]
    · rw [if_neg hab]

/-- C110: `degree_matrix` of a graph with vertices returns the diagonal matrix of the degrees. -/
theorem C110_degrees (ops : List (Op V W)) {n : ℕ} (hn : 0 < n) (x : Fin n → V) (hx : Enumerates ops x) :
    degreeMatrix (history ops) = .ok (rowsOf (degreesOf (history ops) x)) := by
  have hlen : (List.ofFn x).length = n := List.length_ofFn
  rw [degreeMatrix, vertices_ofFn hx]
  rw [hlen, zeros_eq, construct_table hn]
  have h0 : table n n (fun _ _ => 0) =
      (fun i => table n n (fun a b => if a < i then extend (degreesOf (history ops) x) a b else 0)) 0 :=
    table_congr (fun a b _ _ => by simp)
  rw [h0]
  show forRange 0 n _ _ = _
  rw [forRange_ok (fun i => table n n (fun a b => if a < i then extend (degreesOf (history ops) x) a b else 0))
    (Nat.zero_le n), rowsOf_eq]
  · congr 1
    exact table_congr (fun a b ha _ => if_pos ha)
  · intro i _ hi
    rw [List.getElem?_eq_getElem (by rw [hlen]; exact hi)]
    dsimp only
    rw [List.getElem_ofFn]
    obtain ⟨N, h1, -, h2⟩ := get?_of_vert ((hx.2 (x ⟨i, by omega⟩)).2 ⟨_, rfl⟩)
    rw [h1]
    dsimp only
    rw [put_table _ hi hi]
    congr 1
    refine table_congr (fun a b ha hb => ?_)
    rw [upd]
    have hext : ∀ (ha : a < n) (hb : b < n), extend (degreesOf (history ops) x) a b =
        degreesOf (history ops) x ⟨a, ha⟩ ⟨b, hb⟩ := fun ha hb => by rw [extend, dif_pos ⟨ha, hb⟩]
    rw [hext ha hb, degreesOf]
    by_cases hab : a = i ∧ b = i
    · obtain ⟨rfl, rfl⟩ := hab
      rw [if_pos ⟨rfl, rfl⟩, if_pos (by omega), if_pos rfl, h2]
    · rw [if_neg hab]
      by_cases h3 : a < i
      · rw [if_pos h3, if_pos (show a < i + 1 by omega)]
      · rw [if_neg h3]
        by_cases h4 : a < i + 1
        · rw [if_pos h4, if_neg]
          intro h5
          rw [Fin.mk.injEq] at h5
          omega
        · rw [if_neg h4]

/-- C110: `laplacian_matrix` of a graph with vertices returns the difference of the degree matrix and the adjacency
matrix. -/
theorem C110_laplacian (ops : List (Op V W)) {n : ℕ} (hn : 0 < n) (x : Fin n → V) (hx : Enumerates ops x) :
    laplacianMatrix (history ops) = .ok (rowsOf (degreesOf (history ops) x - adjacencyOf (history ops) x)) := by
  rw [laplacianMatrix, C110_degrees ops hn x hx, C110_adjacency ops hn x hx]
  exact C51_sub hn _ _

/-- C110: on the graph without vertices all three raise IndexError. -/
theorem C110_no_vertices : adjacencyMatrix ([] : Graph V W) = .error .indexError ∧
    degreeMatrix ([] : Graph V W) = .error .indexError ∧ laplacianMatrix ([] : Graph V W) = .error .indexError :=
  ⟨rfl, rfl, rfl⟩

theorem enumerates_exists (ops : List (Op V W)) :
    ∃ x : Fin (vertices (history ops)).length → V, Enumerates ops x := by
  obtain ⟨h1, h2⟩ := vertices_spec (history_spec ops).1
  have hs := pairwise_pySort (le := fun a b : V => decide (a ≤ b)) (by simpa using fun a b c => le_trans)
    (by simpa using le_total) (Dict.keys (history ops))
  have hs' : (vertices (history ops)).Pairwise (· < ·) :=
    ((hs.imp (S := fun a b : V => a ≤ b) (by simp)).and h1).imp fun h => lt_of_le_of_ne h.1 h.2
  refine ⟨fun i => (vertices (history ops))[i], ?_, ?_⟩
  · intro i j hij
    exact List.pairwise_iff_getElem.1 hs' _ _ _ _ hij
  · intro v
    have : v ∈ (toAbs (history ops)).verts ↔ v ∈ vertices (history ops) := by rw [h2]; rfl
    rw [this, List.mem_iff_getElem]
    exact ⟨fun ⟨i, hi, h⟩ => ⟨⟨i, hi⟩, h⟩, fun ⟨i, h⟩ => ⟨i, i.2, h⟩⟩

theorem degree_card (ops : List (Op V W)) {n : ℕ} (x : Fin n → V) (hx : Enumerates ops x) (i : Fin n)
    [DecidablePred (fun j : Fin n => Linked (history ops) (x i) (x j))] :
    {v | Linked (history ops) (x i) v}.ncard = (Finset.univ.filter (fun j => Linked (history ops) (x i) (x j))).card := by
  have : {v | Linked (history ops) (x i) v} =
      ((Finset.univ.filter (fun j => Linked (history ops) (x i) (x j))).image x : Set V) := by
    ext v
    rw [Set.mem_setOf_eq, Finset.mem_coe, Finset.mem_image]
    constructor
    · intro h
      have hv : v ∈ (toAbs (history ops)).verts := by
        rw [← E_eq] at h
        exact mem_of_mem_nbrs (history_spec ops).1 h
      obtain ⟨j, rfl⟩ := (hx.2 v).1 hv
      exact ⟨j, Finset.mem_filter.2 ⟨Finset.mem_univ _, h⟩, rfl⟩
    · rintro ⟨j, hj, rfl⟩
      exact (Finset.mem_filter.1 hj).2
  rw [this, Set.ncard_coe_finset, Finset.card_image_of_injective _ hx.1.injective]

/-- C110: the rows of the Laplacian matrix sum to zero, and the matrix is symmetric. -/
theorem C110_laplacian_sums (ops : List (Op V W)) {n : ℕ} (x : Fin n → V) (hx : Enumerates ops x) :
    (∀ i, ∑ j, (degreesOf (history ops) x - adjacencyOf (history ops) x) i j = 0) ∧
      (degreesOf (history ops) x - adjacencyOf (history ops) x).IsSymm := by
  classical
  constructor
  · intro i
    simp only [Matrix.sub_apply, degreesOf, adjacencyOf, Finset.sum_sub_distrib]
    rw [Finset.sum_ite_eq, if_pos (Finset.mem_univ _), Finset.sum_boole, sub_eq_zero]
    rw [degree_card ops x hx i]
  · ext i j
    rw [Matrix.transpose_apply, Matrix.sub_apply, Matrix.sub_apply, degreesOf, degreesOf, adjacencyOf, adjacencyOf]
    have h : Linked (history ops) (x i) (x j) ↔ Linked (history ops) (x j) (x i) :=
      ⟨linked_symm ops _ _, linked_symm ops _ _⟩
    simp only [h]
    by_cases e : i = j
    · rw [e]
    · rw [if_neg e, if_neg (fun h => e h.symm)]

/-! ## The number of spanning trees -/

/-- The spanning trees of the graph. -/
def spanningTrees (ops : List (Op V W)) (C : Finset V) : Set (Finset (V × V)) :=
  {T | SpanningTree (toAbs (history ops)).weight C T}

theorem laplacian_eq (ops : List (Op V W)) {n : ℕ} (x : Fin n → V) (hx : Enumerates ops x)
    [DecidableRel (fun i j : Fin n => Linked (history ops) (x i) (x j))] :
    degreesOf (history ops) x - adjacencyOf (history ops) x =
      MatrixTree.laplacian (fun i j : Fin n => Linked (history ops) (x i) (x j)) := by
  ext i j
  rw [Matrix.sub_apply, degreesOf, adjacencyOf, MatrixTree.laplacian, degree_card ops x hx i]
  congr!

theorem det_submatrix_injective {U : Type} [Fintype U] [DecidableEq U] {k : ℕ} (L : Matrix U U ℤ) (g : Fin k → U)
    (hg : Function.Injective g) : (L.submatrix g g).det =
      (L.submatrix (Subtype.val : ↥(Finset.univ.image g) → U) Subtype.val).det := by
  let e : Fin k ≃ ↥(Finset.univ.image g) := Equiv.ofBijective (fun i => ⟨g i, Finset.mem_image_of_mem _ (Finset.mem_univ _)⟩)
    ⟨fun i j h => hg (Subtype.ext_iff.1 h), fun ⟨u, hu⟩ => by
      obtain ⟨i, -, rfl⟩ := Finset.mem_image.1 hu
      exact ⟨i, rfl⟩⟩
  rw [← Matrix.det_submatrix_equiv_self e]
  rfl

/-- C111, the matrix tree theorem for `laplacian_matrix`: deleting the row and the column of any vertex leaves a matrix
whose determinant is the number of spanning trees. -/
theorem C111_minor (ops : List (Op V W)) {m : ℕ} (x : Fin (m + 1) → V) (hx : Enumerates ops x) (C : Finset V)
    (hC : ∀ v, v ∈ C ↔ v ∈ (toAbs (history ops)).verts) (i : Fin (m + 1)) :
    ((degreesOf (history ops) x - adjacencyOf (history ops) x).submatrix i.succAbove i.succAbove).det =
      ((spanningTrees ops C).ncard : ℤ) := by
  classical
  rw [laplacian_eq ops x hx, det_submatrix_injective _ _ Fin.succAbove_right_injective]
  have him : Finset.univ.image i.succAbove = Finset.univ.erase i := by
    ext j
    rw [Finset.mem_image, Finset.mem_erase]
    constructor
    · rintro ⟨k, -, rfl⟩
      exact ⟨Fin.succAbove_ne i k, Finset.mem_univ _⟩
    · rintro ⟨h, -⟩
      obtain ⟨k, hk⟩ := Fin.exists_succAbove_eq h
      exact ⟨k, Finset.mem_univ _, hk⟩
  rw [him]
  exact MatrixTree.matrix_tree (e := x) hx.1.injective (fun v => by rw [hC, hx.2]) (fun a b => Iff.rfl)
    (fun a b h => linked_symm ops _ _ h) i

/-- If there is a spanning tree, every vertex can be reached from every other. -/
theorem reach_of_tree (ops : List (Op V W)) {n : ℕ} (x : Fin n → V) (hx : Enumerates ops x) (C : Finset V)
    (hC : ∀ v, v ∈ C ↔ v ∈ (toAbs (history ops)).verts) {T : Finset (V × V)} (hT : T ∈ spanningTrees ops C) (r i : Fin n) :
    Reach (fun a b : Fin n => Linked (history ops) (x a) (x b)) r i := by
  have hT : SpanningTree (toAbs (history ops)).weight C T := hT
  have hmem : ∀ j, x j ∈ C := fun j => (hC _).2 ((hx.2 _).2 ⟨j, rfl⟩)
  have hc := Joined.const (T := T)
    (fun v => ∃ j, x j = v ∧ Reach (fun a b : Fin n => Linked (history ops) (x a) (x b)) r j) (by
      intro u v huv
      obtain ⟨-, hu, hv, hw⟩ := hT.edge _ _ huv
      obtain ⟨a, rfl⟩ := (hx.2 u).1 ((hC u).1 hu)
      obtain ⟨b, rfl⟩ := (hx.2 v).1 ((hC v).1 hv)
      apply propext
      constructor
      · rintro ⟨l, hl, hr⟩
        rw [hx.1.injective hl] at hr
        exact ⟨b, rfl, hr.step hw⟩
      · rintro ⟨l, hl, hr⟩
        rw [hx.1.injective hl] at hr
        exact ⟨a, rfl, hr.step (linked_symm ops _ _ hw)⟩) (hT.joined _ (hmem r) _ (hmem i))
  have h1 : ∃ l, x l = x i ∧ Reach (fun a b : Fin n => Linked (history ops) (x a) (x b)) r l := by
    rw [← hc]; exact ⟨r, rfl, Reach.refl _ _⟩
  obtain ⟨l, hl, hr⟩ := h1
  rwa [hx.1.injective hl] at hr

/-- `graph.laplacian_matrix().delete_row(i).delete_col(i).determinant()`; the second component is the list of the rows
that is left. -/
def minorDeterminant (g : Graph V W) (i : ℕ) : Except PyErr (ℤ × Entries) :=
  laplacianMatrix g >>= fun L => deleteRow L i >>= fun L => deleteCol L i >>= determinant

theorem minorDeterminant_eq (ops : List (Op V W)) {m : ℕ} (hm : 0 < m) (x : Fin (m + 1) → V) (hx : Enumerates ops x)
    (i : Fin (m + 1)) : minorDeterminant (history ops) i.val =
      determinant (rowsOf ((degreesOf (history ops) x - adjacencyOf (history ops) x).submatrix i.succAbove i.succAbove)) := by
  rw [minorDeterminant, C110_laplacian ops (by omega) x hx]
  show (deleteRow _ i.val >>= fun L => deleteCol L i.val >>= determinant) = _
  rw [C51_delete_row hm]
  show (deleteCol _ i.val >>= determinant) = _
  rw [C51_delete_col hm]
  rfl

/-- C111, for graphs of at least three vertices (missing: two vertices, where an edgeless graph raises): the determinant that the library computes after deleting the row and the
column of any vertex of the Laplacian matrix is the number of spanning trees. -/
theorem C111_spanning_trees_partial (ops : List (Op V W)) {m : ℕ} (hm : 2 ≤ m) (x : Fin (m + 1) → V) (hx : Enumerates ops x)
    (C : Finset V) (hC : ∀ v, v ∈ C ↔ v ∈ (toAbs (history ops)).verts) (i : Fin (m + 1)) :
    ∃ left, minorDeterminant (history ops) i.val = .ok ((spanningTrees ops C).ncard, left) := by
  classical
  rw [minorDeterminant_eq ops (by omega) x hx, ← C111_minor ops x hx C hC i]
  by_cases hne : (spanningTrees ops C).Nonempty
  · obtain ⟨T, hT⟩ := hne
    refine C91_determinant_regular hm _ (fun k hk => ?_)
    rw [leadingMinor, Matrix.submatrix_submatrix, laplacian_eq ops x hx, det_submatrix_injective]
    · refine (MatrixTree.det_pos _ (fun a b h => linked_symm ops _ _ h) _ i ?_
        (fun v => reach_of_tree ops x hx C hC hT i v)).ne'
      intro h
      obtain ⟨j, -, hj⟩ := Finset.mem_image.1 h
      exact Fin.succAbove_ne i _ hj
    · exact Fin.succAbove_right_injective.comp (Fin.castLE_injective _)
  · rw [Set.not_nonempty_iff_eq_empty] at hne
    obtain ⟨d, l, h1, h2⟩ := C91_determinant_partial hm
      ((degreesOf (history ops) x - adjacencyOf (history ops) x).submatrix i.succAbove i.succAbove)
    rw [C111_minor ops x hx C hC i, hne, Set.ncard_empty] at h2 ⊢
    refine ⟨l, ?_⟩
    rw [h1]
    rcases h2 with h2 | h2 <;> rw [h2] <;> rfl

open Classical in
/-- C111 for two vertices: with an edge the result is 1; without an edge the number of spanning trees is 0, but the
determinant of the matrix `[[0]]` raises UnboundLocalError. -/
theorem C111_two_vertices_violation (ops : List (Op V W)) (x : Fin 2 → V) (hx : Enumerates ops x) (i : Fin 2) :
    minorDeterminant (history ops) i.val =
      if Linked (history ops) (x 0) (x 1) then .ok (1, [[1]]) else .error .unboundLocalError := by
  rw [minorDeterminant_eq ops (by omega) x hx, laplacian_eq ops x hx]
  have hs : Linked (history ops) (x 1) (x 0) ↔ Linked (history ops) (x 0) (x 1) :=
    ⟨linked_symm ops _ _, linked_symm ops _ _⟩
  have he : rowsOf ((MatrixTree.laplacian (fun i j : Fin 2 => Linked (history ops) (x i) (x j))).submatrix i.succAbove
      i.succAbove) = [[if Linked (history ops) (x 0) (x 1) then 1 else 0]] := by
    have h1 : ∀ M : Matrix (Fin 1) (Fin 1) ℤ, rowsOf M = [[M 0 0]] := fun M => by simp [rowsOf]
    rw [h1, Matrix.submatrix_apply, MatrixTree.laplacian, if_pos rfl, Finset.card_filter, Fin.sum_univ_two]
    fin_cases i
    · show [[(((if Linked (history ops) (x 1) (x 0) then 1 else 0) + if Linked (history ops) (x 1) (x 1) then 1 else 0 : ℕ) : ℤ)
        - if Linked (history ops) (x 1) (x 1) then 1 else 0]] = _
      simp only [hs]
      push_cast
      congr 2
      ring
    · show [[(((if Linked (history ops) (x 0) (x 0) then 1 else 0) + if Linked (history ops) (x 0) (x 1) then 1 else 0 : ℕ) : ℤ)
        - if Linked (history ops) (x 0) (x 0) then 1 else 0]] = _
      push_cast
      congr 2
      ring
  rw [he, C91_one_by_one]
  by_cases h : Linked (history ops) (x 0) (x 1)
  · rw [if_pos h, if_pos h]; rfl
  · rw [if_neg h, if_neg h]; rfl

/-! ## The density and copies -/

/-- The pairs in increasing order of a finite set. -/
theorem card_increasing_pairs (C : Finset V) : ((C ×ˢ C).filter (fun p => p.1 < p.2)).card = C.card.choose 2 := by
  rw [← Finset.card_powersetCard]
  refine Finset.card_bij (fun p _ => {p.1, p.2}) ?_ ?_ ?_
  · rintro ⟨a, b⟩ h
    rw [Finset.mem_filter, Finset.mem_product] at h
    rw [Finset.mem_powersetCard]
    refine ⟨?_, Finset.card_pair h.2.ne⟩
    intro c hc
    rw [Finset.mem_insert, Finset.mem_singleton] at hc
    rcases hc with rfl | rfl
    · exact h.1.1
    · exact h.1.2
  · rintro ⟨a, b⟩ h ⟨c, d⟩ h' he
    rw [Finset.mem_filter] at h h'
    have h1 := h.2
    have h2 := h'.2
    dsimp only at he h1 h2
    have ha : a ∈ ({c, d} : Finset V) := he ▸ Finset.mem_insert_self _ _
    have hb : b ∈ ({c, d} : Finset V) := he ▸ Finset.mem_insert_of_mem (Finset.mem_singleton_self _)
    rw [Finset.mem_insert, Finset.mem_singleton] at ha hb
    rcases ha with rfl | rfl
    · rcases hb with rfl | rfl
      · exact absurd h1 (lt_irrefl _)
      · rfl
    · rcases hb with rfl | rfl
      · exact absurd h1 h2.asymm
      · exact absurd h1 (lt_irrefl _)
  · intro s hs
    rw [Finset.mem_powersetCard] at hs
    obtain ⟨a, b, hab, rfl⟩ := Finset.card_eq_two.1 hs.2
    have ha : a ∈ C := hs.1 (Finset.mem_insert_self _ _)
    have hb : b ∈ C := hs.1 (Finset.mem_insert_of_mem (Finset.mem_singleton_self _))
    rcases lt_or_gt_of_ne hab with h | h
    · exact ⟨(a, b), Finset.mem_filter.2 ⟨Finset.mem_product.2 ⟨ha, hb⟩, h⟩, rfl⟩
    · exact ⟨(b, a), Finset.mem_filter.2 ⟨Finset.mem_product.2 ⟨hb, ha⟩, h⟩, Finset.pair_comm _ _⟩

theorem numVertices_eq {g : Graph V W} (hg : Good g) : numVertices g = (toAbs g).verts.ncard := by
  obtain ⟨h1, h2⟩ := vertices_spec hg
  have : numVertices g = (vertices g).length := by
    rw [Graph.vertices, (pySort_perm _ _).length_eq, numVertices, Dict.keys, List.length_map]
  rw [this, ← List.toFinset_card_of_nodup h1, ← Set.ncard_coe_finset]
  congr 1
  ext v
  rw [Finset.mem_coe, List.mem_toFinset, h2]
  rfl

theorem density_eq {g : Graph V W} (hg : Good g) (h : 2 ≤ (toAbs g).verts.ncard) :
    density g = .ok ((numEdges g : ℚ) / ((toAbs g).verts.ncard.choose 2 : ℚ)) := by
  have hpos : (0 : ℚ) < ((toAbs g).verts.ncard.choose 2 : ℚ) := by
    exact_mod_cast Nat.choose_pos h
  have hch : ((((toAbs g).verts.ncard : ℤ) * ((toAbs g).verts.ncard - 1) : ℤ) : ℚ) / 2 =
      ((toAbs g).verts.ncard.choose 2 : ℚ) := by
    rw [Nat.cast_choose_two]
    push_cast
    ring
  rw [density, numVertices_eq hg, hch]
  exact if_neg hpos.ne'

theorem linked_mem (ops : List (Op V W)) (u v : V) (h : Linked (history ops) u v) :
    u ∈ (toAbs (history ops)).verts ∧ v ∈ (toAbs (history ops)).verts := by
  have hs := linked_symm ops u v h
  have hg := (history_spec ops).1
  rw [← E_eq] at h hs
  exact ⟨(mem_of_mem_nbrs hg hs), (mem_of_mem_nbrs hg h)⟩

theorem edgeSet_subset (ops : List (Op V W)) (hl : ∀ v, ¬ Linked (history ops) v v) :
    edgeSet (history ops) ⊆ ((finite_verts ops).toFinset ×ˢ (finite_verts ops).toFinset).filter (fun p => p.1 < p.2) := by
  rintro ⟨u, v⟩ huv
  obtain ⟨h1, h2⟩ := (mem_edgeSet (history_spec ops).1).1 huv
  rw [Finset.mem_filter, Finset.mem_product, (finite_verts ops).mem_toFinset, (finite_verts ops).mem_toFinset]
  refine ⟨linked_mem ops u v h2, lt_of_le_of_ne h1 ?_⟩
  rintro h
  dsimp only at h
  subst h
  exact hl _ h2

/-- C110: `density` raises ZeroDivisionError if there is at most one vertex; otherwise it is the quotient of the number
of edges and the number of pairs, and for a graph without loops at most 1. -/
theorem C110_density (ops : List (Op V W)) :
    ((toAbs (history ops)).verts.ncard ≤ 1 → density (history ops) = .error .zeroDivisionError) ∧
    (2 ≤ (toAbs (history ops)).verts.ncard → ∃ d : ℚ, density (history ops) = .ok d ∧
      d * ((toAbs (history ops)).verts.ncard.choose 2) = {p : V × V | p.1 ≤ p.2 ∧ Linked (history ops) p.1 p.2}.ncard ∧
      0 ≤ d ∧ ((∀ v, ¬ Linked (history ops) v v) → d ≤ 1)) := by
  have hg := (history_spec ops).1
  have hed : numEdges (history ops) = {p : V × V | p.1 ≤ p.2 ∧ Linked (history ops) p.1 p.2}.ncard := by
    rw [numEdges, ← Set.ncard_coe_finset]
    congr 1
    ext ⟨u, v⟩
    exact mem_edgeSet hg
  constructor
  · intro h
    rw [density, numVertices_eq hg]
    refine if_pos ?_
    interval_cases (toAbs (history ops)).verts.ncard <;> simp
  · intro h
    have hpos : (0 : ℚ) < ((toAbs (history ops)).verts.ncard.choose 2 : ℚ) := by
      exact_mod_cast Nat.choose_pos h
    refine ⟨_, density_eq hg h, ?_, div_nonneg (Nat.cast_nonneg _) hpos.le, ?_⟩
    · rw [div_mul_cancel₀ _ hpos.ne', hed]
    · intro hl
      rw [div_le_one hpos]
      norm_cast
      rw [numEdges, Set.ncard_eq_toFinset_card _ (finite_verts ops), ← card_increasing_pairs]
      exact Finset.card_le_card (edgeSet_subset ops hl)

/-- C110: the densities of a graph without loops and of its complement add up to 1. -/
theorem C110_density_complement [DecidableEq W] (ops : List (Op V W)) (one : W)
    (h2 : 2 ≤ (toAbs (history ops)).verts.ncard) (hl : ∀ v, ¬ Linked (history ops) v v) :
    ∃ h d e, complement (history ops) one = .ok h ∧ density (history ops) = .ok d ∧ density h = .ok e ∧ d + e = 1 := by
  have hg := (history_spec ops).1
  obtain ⟨h, hc, hh, hm, hadj⟩ := complement_spec hg one
  have hv : (toAbs h).verts = (toAbs (history ops)).verts := by
    ext v
    exact hm v
  refine ⟨h, _, _, hc, density_eq hg h2, density_eq hh (by rw [hv]; exact h2), ?_⟩
  have hpos : (0 : ℚ) < ((toAbs (history ops)).verts.ncard.choose 2 : ℚ) := by
    exact_mod_cast Nat.choose_pos h2
  rw [hv, ← add_div, div_eq_one_iff_eq hpos.ne']
  norm_cast
  have he : edgeSet h = ((finite_verts ops).toFinset ×ˢ (finite_verts ops).toFinset).filter (fun p => p.1 < p.2) \
      edgeSet (history ops) := by
    ext ⟨u, v⟩
    rw [mem_edgeSet hh, Finset.mem_sdiff, mem_edgeSet hg, Finset.mem_filter, Finset.mem_product,
      (finite_verts ops).mem_toFinset, (finite_verts ops).mem_toFinset]
    constructor
    · rintro ⟨h1, w, hw⟩
      obtain ⟨-, h3, h4, h5, h6⟩ := (hadj u v w).1 hw
      refine ⟨⟨⟨h3, h4⟩, lt_of_le_of_ne h1 h5⟩, ?_⟩
      rintro ⟨-, w', hw'⟩
      rw [h6] at hw'
      cases hw'
    · rintro ⟨⟨⟨h3, h4⟩, h5⟩, h6⟩
      refine ⟨h5.le, one, (hadj u v one).2 ⟨rfl, h3, h4, h5.ne, ?_⟩⟩
      by_contra h7
      exact h6 ⟨h5.le, Option.ne_none_iff_exists'.1 h7⟩
  have hsub := edgeSet_subset ops hl
  rw [numEdges, numEdges, he, Finset.card_sdiff_of_subset hsub, Nat.add_sub_cancel' (Finset.card_le_card hsub),
    card_increasing_pairs, Set.ncard_eq_toFinset_card _ (finite_verts ops)]

/-- C110: `remove_edge` returns a graph that lacks the edge and agrees with `self` elsewhere. -/
theorem C110_remove_edge (ops : List (Op V W)) (a b : V) :
    (toAbs (removeEdge (history ops) a b)).verts = (toAbs (history ops)).verts ∧
    ∀ u v, (toAbs (removeEdge (history ops) a b)).weight u v =
      if s(a, b) = s(u, v) then none else (toAbs (history ops)).weight u v := by
  have : toAbs (removeEdge (history ops) a b) = Op.meaning (toAbs (history ops)) (.deleteEdge a b) :=
    toAbs_run (history_spec ops).1 (.deleteEdge a b)
  rw [this]
  exact ⟨rfl, fun u v => rfl⟩

/-! ## Examples -/

/-- The graph of the documentation of `laplacian_matrix`. -/
def matrixOps : List (Op ℕ ℤ) := [Op.addEdges [(0, 1, 1), (0, 2, 1), (1, 2, 1), (1, 3, 1), (2, 3, 1)]]

example : laplacianMatrix (history matrixOps) =
    .ok [[2, -1, -1, 0], [-1, 3, -1, -1], [-1, -1, 3, -1], [0, -1, -1, 2]] := by decide

/-- The four-cycle with a chord has eight spanning trees. -/
example : (minorDeterminant (history matrixOps) 0).map Prod.fst = .ok 8 := by decide

/-- Cayley: the complete graph on four vertices has sixteen spanning trees, whichever row is deleted. -/
example : ∀ i < 4, (minorDeterminant (completeGraph 4) i).map Prod.fst = .ok 16 := by decide

/-- A graph that is not connected has none. -/
example : (minorDeterminant (history [Op.addEdges [((0 : ℕ), 1, (1 : ℤ)), (2, 3, 1)]]) 0).map Prod.fst = .ok 0 := by decide

/-- The hypothesis `Enumerates` on a concrete graph. -/
example : Enumerates matrixOps (fun i : Fin 4 => i.val) := by
  obtain ⟨hnd, hmem⟩ := vertices_spec (history_spec matrixOps).1
  refine ⟨fun i j h => h, fun v => ?_⟩
  have h1 : v ∈ vertices (history matrixOps) ↔ v ∈ (toAbs (history matrixOps)).verts := hmem v
  have h2 : vertices (history matrixOps) = [0, 1, 2, 3] := by decide
  rw [← h1, h2]
  constructor
  · intro h
    fin_cases h
    exacts [⟨0, rfl⟩, ⟨1, rfl⟩, ⟨2, rfl⟩, ⟨3, rfl⟩]
  · rintro ⟨i, rfl⟩
    fin_cases i <;> simp

example : density (history matrixOps) = .ok (5 / 6) := by
  have h1 : numVertices (history matrixOps) = 4 := by decide
  have h2 : numEdges (history matrixOps) = 5 := by decide
  rw [density, h1, h2]
  norm_num

end Rosemary.Props
