import Verif.Model.Dispatch
import Verif.Props.MaxCliques
import Verif.Props.Tsp
import Verif.Props.Primality
import Mathlib.Analysis.InnerProductSpace.PiL2

/-!
# Properties of the entry points for cliques (C132), of the default distances for round trips (C133), and of the class
`PellEquation` (C134)
-/

namespace Rosemary.Props

open Rosemary.Graph Rosemary.Cliques Rosemary.Spec Rosemary.Dispatch Rosemary.Classification

/-! ## C132 -/

section Cliques

variable {V W : Type} [LinearOrder V]

/-- C132: on a graph without loops `maximal_cliques` gives every maximal clique exactly once with each of the three
supported algorithms, and `None` for any other name. -/
theorem C132_maximal_cliques (ord : Finset V → List V) (hord : ∀ S, (ord S).Nodup ∧ ∀ x, x ∈ ord S ↔ x ∈ S)
    (pop : List V → Finset V → V) (hpop : ∀ l S, S.Nonempty → pop l S ∈ S) (ops : List (Op V W))
    (hloop : ∀ v, ¬ Linked (history ops) v v) (algorithm : String) :
    (algorithm ∈ ["tomita", "bron_kerbosch", "bron_kerbosch_binary"] →
      ∃ l, maximalCliques ord pop (history ops) algorithm = some (some l) ∧ ListsMaximalCliques (history ops) l) ∧
    (algorithm ∉ ["tomita", "bron_kerbosch", "bron_kerbosch_binary"] →
      maximalCliques ord pop (history ops) algorithm = some none) := by
  constructor
  · intro h
    simp only [List.mem_cons, List.not_mem_nil, or_false] at h
    rcases h with rfl | rfl | rfl
    · obtain ⟨l, h1, h2⟩ := C72_tomita ord hord ops hloop
      exact ⟨l, by rw [maximalCliques, if_pos rfl, h1]; rfl, h2⟩
    · exact ⟨_, by rw [maximalCliques, if_neg (by decide), if_pos rfl], C72_bron_kerbosch ops pop hpop⟩
    · exact ⟨_, by rw [maximalCliques, if_neg (by decide), if_neg (by decide), if_pos rfl],
        (C72_bron_kerbosch_binary ord hord ops).1⟩
  · intro h
    simp only [List.mem_cons, List.not_mem_nil, or_false, not_or] at h
    rw [maximalCliques, if_neg h.1, if_neg h.2.1, if_neg h.2.2]

/-- C132: on a graph without loops and with at least one vertex `maximum_clique` returns a maximum clique with its size for
both supported algorithms, and `None` for any other name. -/
theorem C132_maximum_clique (ord : Finset V → List V) (hord : ∀ S, (ord S).Nodup ∧ ∀ x, x ∈ ord S ↔ x ∈ S)
    (ops : List (Op V W)) (hne : (toAbs (history ops)).verts.Nonempty) (hloop : ∀ v, ¬ Linked (history ops) v v)
    (algorithm : String) :
    (algorithm ∈ ["ostergard", "pardalos"] →
      ∃ r, maximumClique ord (history ops) algorithm = .ok (some r) ∧ ReturnsMaximumClique (history ops) r) ∧
    (algorithm ∉ ["ostergard", "pardalos"] → maximumClique ord (history ops) algorithm = .ok none) := by
  constructor
  · intro h
    simp only [List.mem_cons, List.not_mem_nil, or_false] at h
    rcases h with rfl | rfl
    · obtain ⟨r, h1, h2⟩ := C73_ostergard_partial ops hne hloop
      exact ⟨r, by rw [maximumClique, if_pos rfl, h1]; rfl, h2⟩
    · obtain ⟨r, h1, h2⟩ := C73_pardalos ord hord ops
      exact ⟨r, by rw [maximumClique, if_neg (by decide), if_pos rfl, h1]; rfl, h2⟩
  · intro h
    simp only [List.mem_cons, List.not_mem_nil, or_false, not_or] at h
    rw [maximumClique, if_neg h.1, if_neg h.2]

/-- C132: the two supported algorithms of `maximum_clique` give cliques of the same size. -/
theorem C132_same_size (ord : Finset V → List V) (hord : ∀ S, (ord S).Nodup ∧ ∀ x, x ∈ ord S ↔ x ∈ S)
    (ops : List (Op V W)) (hne : (toAbs (history ops)).verts.Nonempty) (hloop : ∀ v, ¬ Linked (history ops) v v) :
    ∃ r s, maximumClique ord (history ops) "ostergard" = .ok (some r) ∧
      maximumClique ord (history ops) "pardalos" = .ok (some s) ∧ r.1 = s.1 := by
  obtain ⟨r, h1, h2, h3, h4⟩ := (C132_maximum_clique ord hord ops hne hloop "ostergard").1 (by simp)
  obtain ⟨s, k1, k2, k3, k4⟩ := (C132_maximum_clique ord hord ops hne hloop "pardalos").1 (by simp)
  refine ⟨r, s, h1, k1, ?_⟩
  have a := h4.2 _ k4.1
  have b := k4.2 _ h4.1
  rw [List.toFinset_card_of_nodup h2, List.toFinset_card_of_nodup k2] at a b
  omega

end Cliques

example : maximumClique (fun S => (List.range 3).filter (· ∈ S)) (history [Op.addEdge 0 1 (1 : ℤ), Op.addEdge 1 2 1, Op.addEdge 2 0 1])
    "ostergard" = .ok (some (3, [0, 1, 2])) := by decide +kernel

example : maximumClique (fun S => (List.range 3).filter (· ∈ S)) (history [Op.addEdge 0 1 (1 : ℤ)]) "tomita" = .ok none := by
  decide +kernel

/-! ## C133 -/

section Distances

variable {P R : Type}

/-- `matrix[i][j]` -/
def entryAt (M : List (List (WithTop R))) (i j : ℕ) : WithTop R := (M.getD i []).getD j ⊤

/-- `M` is a square matrix of order `n`. -/
def SquareOf (n : ℕ) (M : List (List (WithTop R))) : Prop := M.length = n ∧ ∀ row ∈ M, row.length = n

theorem square_setEntry {n : ℕ} {M : List (List (WithTop R))} (hM : SquareOf n M) {i j : ℕ} (hi : i < n) (hj : j < n)
    (x : WithTop R) : SquareOf n (setEntry M i j x) ∧
      ∀ a b, entryAt (setEntry M i j x) a b = if a = i ∧ b = j then x else entryAt M a b := by
  obtain ⟨h1, h2⟩ := hM
  have hrow : (M.getD i []).length = n := by
    rw [List.getD_eq_getElem _ _ (by omega)]
    exact h2 _ (List.getElem_mem _)
  refine ⟨⟨by rw [setEntry, List.length_set, h1], ?_⟩, ?_⟩
  · intro row hr
    rcases List.mem_or_eq_of_mem_set hr with h | rfl
    · exact h2 row h
    · rw [List.length_set, hrow]
  · intro a b
    have hga : (M.set i ((M.getD i []).set j x)).getD a [] = if i = a then (M.getD i []).set j x else M.getD a [] := by
      rw [List.getD_eq_getElem?_getD, List.getElem?_set]
      by_cases ha : i = a
      · rw [if_pos ha, if_pos (by omega), if_pos ha]; rfl
      · rw [if_neg ha, if_neg ha, ← List.getD_eq_getElem?_getD]
    rw [entryAt, setEntry, hga]
    by_cases ha : i = a
    · subst ha
      rw [if_pos rfl, List.getD_eq_getElem?_getD, List.getElem?_set]
      by_cases hb : j = b
      · subst hb
        rw [if_pos rfl, if_pos (by omega), if_pos ⟨rfl, rfl⟩, Option.getD_some]
      · rw [if_neg hb, if_neg (fun h => hb h.2.symm), entryAt, ← List.getD_eq_getElem?_getD]
    · rw [if_neg ha, if_neg (fun h => ha h.1.symm), entryAt]

theorem distanceRow_spec (dist : P → P → R) (points : List P) (i : ℕ) (p : P) (hi : i < points.length) :
    ∀ (js : List ℕ) (M : List (List (WithTop R))), (∀ j ∈ js, j < i) → SquareOf points.length M →
      ∃ M', distanceRow dist points i p js M = .ok M' ∧ SquareOf points.length M' ∧
        ∀ a b, (a = i → b ∈ js → ∃ q, points[b]? = some q ∧ entryAt M' a b = (dist p q : R)) ∧
          (b = i → a ∈ js → ∃ q, points[a]? = some q ∧ entryAt M' a b = (dist p q : R)) ∧
          (¬ (a = i ∧ b ∈ js) → ¬ (b = i ∧ a ∈ js) → entryAt M' a b = entryAt M a b) := by
  intro js
  induction js with
  | nil =>
    intro M _ hM
    exact ⟨M, rfl, hM, fun a b => ⟨fun _ h => by simp at h, fun _ h => by simp at h, fun _ _ => rfl⟩⟩
  | cons j js ih =>
    intro M hjs hM
    have hj : j < i := hjs j List.mem_cons_self
    have hjn : j < points.length := hj.trans hi
    obtain ⟨s1, s2⟩ := square_setEntry hM hi hjn ((dist p points[j] : R) : WithTop R)
    obtain ⟨t1, t2⟩ := square_setEntry s1 hjn hi ((dist p points[j] : R) : WithTop R)
    obtain ⟨M', k1, k2, k3⟩ := ih _ (fun x hx => hjs x (List.mem_cons_of_mem _ hx)) t1
    refine ⟨M', ?_, k2, ?_⟩
    · rw [distanceRow, List.getElem?_eq_getElem hjn]
      exact k1
    · intro a b
      obtain ⟨l1, l2, l3⟩ := k3 a b
      refine ⟨?_, ?_, ?_⟩
      · intro ha hb
        by_cases hb' : b ∈ js
        · exact l1 ha hb'
        · have hbj : b = j := (List.mem_cons.1 hb).resolve_right hb'
          refine ⟨points[j], by rw [hbj, List.getElem?_eq_getElem hjn], ?_⟩
          rw [l3 (fun h => hb' h.2) (fun h => by have := h.1; omega), t2, if_neg (by omega), s2, if_pos ⟨ha, hbj⟩]
      · intro hb ha
        by_cases ha' : a ∈ js
        · exact l2 hb ha'
        · have haj : a = j := (List.mem_cons.1 ha).resolve_right ha'
          refine ⟨points[j], by rw [haj, List.getElem?_eq_getElem hjn], ?_⟩
          rw [l3 (fun h => by have := h.1; omega) (fun h => ha' h.2), t2, if_pos ⟨haj, hb⟩]
      · intro h1 h2
        rw [List.mem_cons] at h1 h2
        rw [l3 (fun h => h1 ⟨h.1, Or.inr h.2⟩) (fun h => h2 ⟨h.1, Or.inr h.2⟩), t2,
          if_neg (fun h => h2 ⟨h.2, Or.inl h.1⟩), s2, if_neg (fun h => h1 ⟨h.1, Or.inl h.2⟩)]

/-- The distance of the points with the numbers `i` and `j`, as `euclidean_distance_matrix` evaluates it: from the later
point to the earlier one. -/
def pairDistance (dist : P → P → R) (points : List P) (i j : ℕ) : Option R :=
  (points[max i j]?).bind (fun p => (points[min i j]?).map (fun q => dist p q))

theorem distanceRows_spec (dist : P → P → R) (points : List P) : ∀ (k m : ℕ) (M : List (List (WithTop R))),
    m + k = points.length → SquareOf points.length M →
    (∀ i < m, ∀ j < m, (i = j → entryAt M i j = ⊤) ∧ (i ≠ j → ∃ r, pairDistance dist points i j = some r ∧ entryAt M i j = r)) →
    ∃ M', distanceRows dist points (List.range' m k) M = .ok M' ∧ SquareOf points.length M' ∧
      ∀ i < points.length, ∀ j < points.length, (i = j → entryAt M' i j = ⊤) ∧
        (i ≠ j → ∃ r, pairDistance dist points i j = some r ∧ entryAt M' i j = r) := by
  intro k
  induction k with
  | zero =>
    intro m M hm hM h
    rw [Nat.add_zero] at hm
    subst hm
    exact ⟨M, rfl, hM, h⟩
  | succ k ih =>
    intro m M hm hM h
    have hmn : m < points.length := by omega
    obtain ⟨s1, s2⟩ := square_setEntry hM hmn hmn ⊤
    obtain ⟨M1, k1, k2, k3⟩ := distanceRow_spec dist points m points[m] hmn (List.range m) _ (fun j hj => List.mem_range.1 hj) s1
    obtain ⟨M', l1, l2⟩ := ih (m + 1) M1 (by omega) k2 (by
      intro i hi j hj
      obtain ⟨a1, a2, a3⟩ := k3 i j
      constructor
      · intro hij
        rw [a3 (fun h => by have := List.mem_range.1 h.2; omega) (fun h => by have := List.mem_range.1 h.2; omega), s2]
        by_cases him : i = m
        · rw [if_pos ⟨him, by omega⟩]
        · rw [if_neg (fun h => him h.1)]
          exact (h i (by omega) j (by omega)).1 hij
      · intro hij
        by_cases him : i = m
        · obtain ⟨q, q1, q2⟩ := a1 him (List.mem_range.2 (by omega))
          refine ⟨_, ?_, q2⟩
          rw [pairDistance, max_eq_left (by omega), min_eq_right (by omega), q1, him, List.getElem?_eq_getElem hmn]
          rfl
        · by_cases hjm : j = m
          · obtain ⟨q, q1, q2⟩ := a2 hjm (List.mem_range.2 (by omega))
            refine ⟨_, ?_, q2⟩
            rw [pairDistance, max_eq_right (by omega), min_eq_left (by omega), q1, hjm, List.getElem?_eq_getElem hmn]
            rfl
          · rw [a3 (fun h => him h.1) (fun h => hjm h.1), s2, if_neg (fun h => him h.1)]
            exact (h i (by omega) j (by omega)).2 hij)
    refine ⟨M', ?_, l2⟩
    rw [List.range'_succ, distanceRows, List.getElem?_eq_getElem hmn]
    dsimp only
    rw [k1]
    exact l1

/-- C133: `euclidean_distance_matrix` returns a square matrix with `inf` on the diagonal; the entries in the places `i, j`
and `j, i` are the same, whatever the rounding: the distance computed from the later to the earlier point. -/
theorem C133_euclidean_distance_matrix [Zero R] (dist : P → P → R) (points : List P) :
    ∃ M, euclideanDistanceMatrix dist points = .ok M ∧ SquareOf points.length M ∧
      ∀ i < points.length, ∀ j < points.length, (i = j → entryAt M i j = ⊤) ∧
        (i ≠ j → ∃ r, pairDistance dist points i j = some r ∧ entryAt M i j = r ∧ entryAt M j i = r) := by
  obtain ⟨M, h1, h2, h3⟩ := distanceRows_spec dist points points.length 0
    (List.replicate points.length (List.replicate points.length ((0 : R) : WithTop R))) (by omega)
    ⟨by simp, fun row hr => by rw [List.eq_of_mem_replicate hr]; simp⟩ (fun i hi => by omega)
  refine ⟨M, ?_, h2, ?_⟩
  · rw [euclideanDistanceMatrix, List.range_eq_range']
    exact h1
  · intro i hi j hj
    refine ⟨(h3 i hi j hj).1, fun hij => ?_⟩
    obtain ⟨r, r1, r2⟩ := (h3 i hi j hj).2 hij
    obtain ⟨r', r1', r2'⟩ := (h3 j hj i hi).2 (Ne.symm hij)
    rw [pairDistance, max_comm, min_comm] at r1'
    rw [pairDistance] at r1
    rw [r1] at r1'
    exact ⟨r, by rw [pairDistance, r1], r2, by rw [r2', Option.some.inj r1']⟩

end Distances

/-- tsp.py:15 in exact arithmetic. -/
noncomputable def planeDistance (p q : ℝ × ℝ) : ℝ := Real.sqrt ((q.1 - p.1) ^ 2 + (q.2 - p.2) ^ 2)

/-- The expression is the distance in the Euclidean plane. -/
theorem planeDistance_eq (p q : ℝ × ℝ) : planeDistance p q = dist (!₂[p.1, p.2]) (!₂[q.1, q.2]) := by
  rw [EuclideanSpace.dist_eq, planeDistance, Fin.sum_univ_two]
  congr 1
  simp only [Real.dist_eq, sq_abs, Matrix.cons_val_zero, Matrix.cons_val_one]
  ring

theorem tourLength_coe {R : Type} [AddCommGroup R] {D : ℕ → ℕ → WithTop R} {F : ℕ → ℕ → R} {n : ℕ} (h2 : 2 ≤ n)
    (hD : ∀ i < n, ∀ j < n, i ≠ j → D i j = F i j) {t : List ℕ} (ht : IsTour n t) :
    tourLength D t = ((tourLength F t : R) : WithTop R) := by
  have hlen : t.length = n := Tsp.tour_length ht
  have : t.zipWith D (t.rotate 1) = (t.zipWith F (t.rotate 1)).map (fun x : R => (x : WithTop R)) := by
    rw [List.map_zipWith]
    apply List.ext_getElem (by simp)
    intro k hk1 hk2
    have hk : k < t.length := by simpa using hk1
    rw [List.getElem_zipWith, List.getElem_zipWith, List.getElem_rotate]
    refine hD _ ((ht.2 _).1 (List.getElem_mem _)) _ ((ht.2 _).1 (List.getElem_mem _)) ?_
    intro he
    have := (List.Nodup.getElem_inj_iff ht.1).1 he
    by_cases hlast : k + 1 = t.length
    · rw [hlast, Nat.mod_self] at this; omega
    · rw [Nat.mod_eq_of_lt (by omega)] at this; omega
  rw [tourLength, this, tourLength]
  exact (map_list_sum (WithTop.addHom : R →+ WithTop R) _).symm

/-- C133: `depth_first` and `branch_and_bound` with at least two points of the plane and the default matrix return, in exact
arithmetic, a round trip through all points that is as short as possible in the Euclidean plane, with its length. -/
theorem C133_shortest_tour (points : List (ℝ × ℝ)) (h2 : 2 ≤ points.length) (pt : ℕ → EuclideanSpace ℝ (Fin 2))
    (hpt : ∀ i p, points[i]? = some p → pt i = !₂[p.1, p.2]) :
    ∃ M, euclideanDistanceMatrix planeDistance points = .ok M ∧
      (∃ value path, Tsp.depthFirst (entryAt M) points.length = .ok (((value : ℝ) : WithTop ℝ), path) ∧ IsTour points.length path ∧
        tourLength (fun i j => dist (pt i) (pt j)) path = value ∧
        ∀ t, IsTour points.length t → value ≤ tourLength (fun i j => dist (pt i) (pt j)) t) ∧
      ∃ value path, Tsp.branchAndBound (entryAt M) points.length = some (.ok (((value : ℝ) : WithTop ℝ), path)) ∧
        IsTour points.length path ∧ tourLength (fun i j => dist (pt i) (pt j)) path = value ∧
        ∀ t, IsTour points.length t → value ≤ tourLength (fun i j => dist (pt i) (pt j)) t := by
  obtain ⟨M, h1, -, h3⟩ := C133_euclidean_distance_matrix planeDistance points
  have hD : ∀ i < points.length, ∀ j < points.length, i ≠ j → entryAt M i j = ((dist (pt i) (pt j) : ℝ) : WithTop ℝ) := by
    intro i hi j hj hij
    obtain ⟨r, r1, r2, -⟩ := (h3 i hi j hj).2 hij
    rw [r2]
    rw [pairDistance] at r1
    have hi' := hpt i _ (List.getElem?_eq_getElem hi)
    have hj' := hpt j _ (List.getElem?_eq_getElem hj)
    rcases le_total i j with h | h
    · rw [max_eq_right h, min_eq_left h, List.getElem?_eq_getElem hi, List.getElem?_eq_getElem hj] at r1
      have : planeDistance points[j] points[i] = r := Option.some.inj r1
      rw [← this, planeDistance_eq, ← hi', ← hj', dist_comm]
    · rw [max_eq_left h, min_eq_right h, List.getElem?_eq_getElem hi, List.getElem?_eq_getElem hj] at r1
      have : planeDistance points[i] points[j] = r := Option.some.inj r1
      rw [← this, planeDistance_eq, ← hi', ← hj']
  have hfin : ∀ i < points.length, ∀ j < points.length, i ≠ j → entryAt M i j ≠ ⊤ := by
    intro i hi j hj hij
    rw [hD i hi j hj hij]
    exact WithTop.coe_ne_top
  refine ⟨M, h1, ?_, ?_⟩
  · obtain ⟨value, path, k1, k2, k3, k4⟩ := C62_depth_first_finite (entryAt M) h2 hfin
    rw [tourLength_coe h2 hD k2] at k3
    refine ⟨_, path, by rw [k1, ← k3], k2, rfl, fun t ht => ?_⟩
    have := k4 t ht
    rwa [← k3, tourLength_coe h2 hD ht, WithTop.coe_le_coe] at this
  · obtain ⟨value, path, k1, k2, k3, k4⟩ := C62_branch_and_bound_partial (entryAt M) h2 hfin
    rw [tourLength_coe h2 hD k2] at k3
    refine ⟨_, path, by rw [k1, ← k3], k2, rfl, fun t ht => ?_⟩
    have := k4 t ht
    rwa [← k3, tourLength_coe h2 hD ht, WithTop.coe_le_coe] at this

/-- Three points on a line, with the distance of the first coordinates. -/
example : euclideanDistanceMatrix (fun p q : ℤ × ℤ => |p.1 - q.1|) [(0, 0), (3, 0), (5, 0)] =
    .ok [[⊤, 3, 5], [3, ⊤, 2], [5, 2, ⊤]] := by decide +kernel

/-! ## C134 -/

/-- C134: `PellEquation(D, N)` is accepted exactly for positive `D` that is not a square, and keeps its arguments. -/
theorem C134_pell_equation (D N : Int) :
    (pellEquation D N = .ok (D, N) ∧ 0 < D ∧ ∀ r : Int, r ^ 2 ≠ D) ∨
    (pellEquation D N = .error .valueError ∧ (D ≤ 0 ∨ ∃ r : Int, r ^ 2 = D)) := by
  rw [pellEquation]
  by_cases hD : D ≤ 0
  · rw [if_pos hD]
    exact Or.inr ⟨rfl, Or.inl hD⟩
  · rw [if_neg hD]
    rcases C14_is_square D with ⟨r, h1, h2⟩ | ⟨h1, h2⟩
    · rw [h1]
      dsimp only
      rw [if_neg (by rintro rfl; simp at h2; omega)]
      exact Or.inr ⟨rfl, Or.inr ⟨r, h2⟩⟩
    · rw [h1]
      exact Or.inl ⟨rfl, by omega, h2⟩

example : pellEquation 61 1 = .ok (61, 1) := by decide +kernel
example : pellEquation 49 1 = .error .valueError := by decide +kernel

end Rosemary.Props
